import Verif.Lemmas.EngWhole
/-! The root of the tree stays the root. -/
namespace JH.Eng
section
variable {C : Cfg}

/-- Nodes are only added, none changes its sort, and the root is the same. -/
def Keeps0 (s t : St) : Prop := t.doc = s.doc ∧ ∃ l, t.heads = s.heads ++ l

theorem Keeps0.refl (s : St) : Keeps0 s s := ⟨rfl, [], by simp⟩
theorem Keeps0.of {s t : St} (h : t.fulls = s.fulls) (d : t.doc = s.doc := by rfl) : Keeps0 s t := ⟨d, [], by rw [heads_fulls, h, ← heads_fulls]; simp⟩
theorem Keeps0.trans {s t u : St} (h : Keeps0 s t) (k : Keeps0 t u) : Keeps0 s u := by
  obtain ⟨d, l, h⟩ := h
  obtain ⟨e, m, k⟩ := k
  exact ⟨e.trans d, l ++ m, by rw [k, h, List.append_assoc]⟩

theorem doc_foldl {α : Type} {f : St → α → St} (h : ∀ s a, (f s a).doc = s.doc) (l : List α) (s : St) : (l.foldl f s).doc = s.doc := by
  induction l generalizing s with
  | nil => rfl
  | cons a l ih => rw [List.foldl_cons, ih, h]

theorem doc_setParents (s : St) (l : List Nat) (p : Nat) : (s.setParents l p).doc = s.doc := by
  obtain ⟨k, hk⟩ := setParents_frame l p s; rw [hk]

theorem doc_append (s : St) (p c : Nat) : (s.append p c).doc = s.doc := by
  unfold St.append
  split
  · split <;> rfl
  · rfl

/-- A method that makes only copies. -/
class Keeping {α : Type} (m : EM α) : Prop where
  out : ∀ C s, Keeps0 s (m C s).2

instance Keeping.pure {α : Type} (a : α) : Keeping (Pure.pure a : EM α) := ⟨fun _ s => .refl s⟩
instance Keeping.q {α : Type} (f : Cfg → St → α) : Keeping (Eng.q f) := ⟨fun _ s => .refl s⟩
instance Keeping.getS : Keeping getS := ⟨fun _ s => .refl s⟩
instance Keeping.cfg : Keeping cfg := ⟨fun _ s => .refl s⟩
instance Keeping.bind {α β : Type} (m : EM α) (f : α → EM β) [h : Keeping m] [k : ∀ a, Keeping (f a)] : Keeping (m >>= f) :=
  ⟨fun C s => (h.out C s).trans ((k _).out C _)⟩
instance Keeping.iteQ {α : Type} (c : Cfg → St → Bool) (m₁ m₂ : EM α) [h : Keeping m₁] [k : Keeping m₂] : Keeping (Eng.iteQ c m₁ m₂) := ⟨fun C s => by
  unfold Eng.iteQ
  split
  · exact h.out C s
  · exact k.out C s⟩
instance Keeping.ite {α : Type} (c : Prop) [Decidable c] (m₁ m₂ : EM α) [h : Keeping m₁] [k : Keeping m₂] : Keeping (if c then m₁ else m₂) := by
  split
  · exact h
  · exact k
instance Keeping.whQ (c : Cfg → St → Bool) (m : EM Unit) [h : Keeping m] : Keeping (Eng.whQ c m) := ⟨fun C s => by
  unfold Eng.whQ
  split
  · exact h.out C s
  · exact .refl s⟩
theorem Keeping.mod {f : St → St} (h : ∀ s, (f s).fulls = s.fulls) (d : ∀ s, (f s).doc = s.doc := by intro s; rfl) : Keeping (modS f) := ⟨fun _ s => .of (h s) (d s)⟩

instance (p c : Nat) : Keeping (removeChild p c) := Keeping.mod fun _ => fulls_two _ _ _ _ _ (fun _ => rfl) fun _ => rfl
instance (i : Nat) : Keeping (noteDrop i) := Keeping.mod fun _ => fulls_of rfl
instance (i : Nat) : Keeping (noteUnwrap i) := Keeping.mod fun _ => fulls_of rfl
instance (b : Bool) : Keeping (noteErr b) := by
  cases b
  · exact ⟨fun _ s => .of rfl⟩
  · exact ⟨fun _ s => .of (fulls_of rfl)⟩
instance (p c : Nat) : Keeping (modS fun s => s.linkLast p c) := Keeping.mod fun _ => fulls_linkLast _ _ _
instance (p c : Nat) : Keeping (modS fun s => s.append p c) := Keeping.mod (fun _ => fulls_append _ _ _) fun s => doc_append s p c

instance (f : Nat → EM Unit) [h : ∀ i, Keeping (f i)] (l : List Nat) : Keeping (each f l) := by
  induction l with
  | nil => unfold each; infer_instance
  | cons i l ih => unfold each; infer_instance

theorem allocKeep0 {s : St} {n : ENode} (C : Cfg) : Keeps0 s (alloc n C s).2 := ⟨rfl, [n.head], heads_add s n⟩

instance (dropped unwrapped : List Nat) (f i : Nat) : Keeping (cloneF dropped unwrapped f i) := by
  induction f generalizing i with
  | zero => exact ⟨fun C s => allocKeep0 (s := s) C⟩
  | succ f ih =>
    refine ⟨fun C s => ?_⟩
    have h1 : Keeps0 s (alloc { (s.n i) with children := [], parent := none, content := none } C s).2 := allocKeep0 (s := s) C
    have h2 : ∀ c, Keeping (do
        iteQ (fun _ _ => dropped.contains i) (noteDrop c) (whQ (fun _ _ => unwrapped.contains i) (noteUnwrap c))
        each (fun k => do
          let d ← cloneF dropped unwrapped f k
          modS fun s => s.linkLast c d) (s.n i).children
        each (fun k => do
          let d ← cloneF dropped unwrapped f k
          modS fun s => (s.upd d fun n => { n with parent := some c }).upd c fun n => { n with content := some d }) (s.n i).content.toList
        pure c) := by
      intro c
      have h3 : ∀ d, Keeping (modS fun s => (s.upd d fun n => { n with parent := some c }).upd c fun n => { n with content := some d }) := fun d =>
        Keeping.mod fun _ => fulls_two _ _ _ _ _ (fun _ => rfl) fun _ => rfl
      infer_instance
    exact h1.trans ((h2 _).out C _)

instance (m : Nat) : Keeping (clearMarker m) := Keeping.mod (fun _ =>
  fulls_upd' _ _ (fun _ => rfl) (fulls_foldl (f := fun s c => s.upd c fun n => { n with parent := none }) (fun s c => fulls_upd s c _ fun _ => rfl) _ _))
  fun s => doc_foldl (f := fun s c => s.upd c fun n => { n with parent := none }) (fun _ _ => rfl) (s.n m).children s

instance (dropped unwrapped : List Nat) (m o : Nat) : Keeping (fillMarker dropped unwrapped m o) := by unfold fillMarker; infer_instance

instance (dropped unwrapped : List Nat) (option : Option Nat) (span : Option (Nat × Nat)) (size : Nat) (l : List (Nat × Nat)) (r : Nat) :
    Keeping (fillMarkers dropped unwrapped option span size l r) := by
  induction l generalizing r with
  | nil => unfold fillMarkers; infer_instance
  | cons x l ih =>
    obtain ⟨m, p⟩ := x
    rw [fillMarkers.eq_def]
    simp only
    cases option with
    | none => infer_instance
    | some o => infer_instance

instance (dropped unwrapped : List Nat) (i r : Nat) : Keeping (projectSelect dropped unwrapped i r) := by unfold projectSelect; infer_instance

instance (dropped unwrapped : List Nat) (f : Nat) (l : List Nat) (r : Nat) : Keeping (projectLoop dropped unwrapped f l r) := by
  induction f generalizing l r with
  | zero => rw [projectLoop.eq_def]; infer_instance
  | succ f ih =>
    cases l with
    | nil => rw [projectLoop.eq_def]; infer_instance
    | cons i l =>
      rw [projectLoop.eq_def]
      simp only
      refine @Keeping.bind _ _ _ _ _ fun n => ?_
      by_cases h : n.kind ≠ .element
      · rw [if_pos h]; infer_instance
      · rw [if_neg h]; infer_instance

instance : Keeping project := by unfold project; infer_instance

instance (i : Nat) : Keeping (dropOne i) := by
  unfold dropOne
  refine @Keeping.bind _ _ _ _ _ fun p => ?_
  cases p with
  | none => exact Keeping.pure ()
  | some p => infer_instance

instance : Keeping dropAll := by unfold dropAll; infer_instance

instance (i : Nat) : Keeping (unwrapOne i) := by
  unfold unwrapOne
  refine @Keeping.bind _ _ _ _ _ fun p => ?_
  cases p with
  | none => exact Keeping.pure ()
  | some p =>
    have : Keeping (modS fun s => (((s.upd i fun n => { n with children := [] }).setParents (s.n i).children p).splice p i (s.n i).children).upd i
        fun n => { n with parent := none }) := Keeping.mod (fun s =>
      fulls_upd' _ _ (fun _ => rfl) ((fulls_splice _ _ _ _).trans ((fulls_setParents _ _ _).trans (fulls_upd _ _ _ fun _ => rfl))))
      fun s => doc_setParents (s.upd i fun n => { n with children := [] }) (s.n i).children p
    simp only
    infer_instance

instance : Keeping unwrapAll := by unfold unwrapAll; infer_instance

instance : Keeping finishContext := by
  refine ⟨fun C s => ?_⟩
  unfold finishContext
  split
  · exact .refl s
  · split
    · exact .of (fulls_upd' _ _ (fun _ => rfl) (fulls_upd' _ _ (fun _ => rfl) ((fulls_splice _ _ _ _).trans (fulls_setParents _ _ _)))) (doc_setParents s _ s.doc)
    · exact .refl s

instance : Keeping finishShell := by
  unfold finishShell
  have : Keeping (fun C s => removeChild (s.html.getD 0) s.body C s : EM Unit) := ⟨fun C s => (inferInstance : Keeping (removeChild (s.html.getD 0) s.body)).out C s⟩
  exact @Keeping.whQ _ _ this

instance : Keeping finish := by unfold finish; infer_instance


/-! ### The parse -/

theorem Step.doc {s t : St} (h : Step C s t) : t.doc = s.doc := by
  cases h with
  | ctl h => simp only [St.core, Prod.mk.injEq] at h; exact h.2.1
  | stack l h => rfl
  | fmt l h => rfl
  | entry => rfl
  | garbage => rfl
  | data => rfl
  | leaf => rfl
  | elem => rfl
  | clone => rfl
  | poNew => rfl
  | move c p pos => obtain ⟨k, hk⟩ := detach_frame s c; show (s.detach c).doc = _; rw [hk]
  | wrap e u b => exact doc_foldl (f := fun s' c => s'.appendMoved s.heap.length c) (fun _ _ => rfl) _ _
  | shrink => rfl
  | clearBody => exact doc_foldl (f := fun s c => s.upd c fun n => { n with parent := none }) (fun _ _ => rfl) _ _
  | dropBody => rfl
  | closePo i node parent h => exact doc_foldl (f := fun s c => s.append parent c) (fun s c => doc_append s parent c) _ _
  | attrs => rfl

theorem Steps.keeps {s t : St} (h : Steps C s t) : Keeps0 s t := by
  obtain ⟨l, hl, -⟩ := h.heads
  refine ⟨?_, l, hl⟩
  clear hl
  replace h := h.chain
  induction h with
  | refl => rfl
  | tail _ st ih => exact st.doc.trans ih

instance : Keeping (addChild p n) := ⟨fun C s => ⟨rfl, [n.head], (heads_linkLast _ _ _).trans (heads_add _ _)⟩⟩

instance : Keeping buildShell := by
  have : ∀ h hd b, Keeping (modS fun s => { s with html := some h, head := some hd, body := b, stack := [s.doc, h, b] }) := fun _ _ _ =>
    Keeping.mod fun _ => fulls_of rfl
  unfold buildShell
  infer_instance

instance : Keeping setupHtml := by
  have : Keeping (modS fun s => { s with ctxNode := s.html }) := Keeping.mod fun _ => fulls_of rfl
  have h2 : Keeping (fun C s => noteUnwrap (s.head.getD 0) C s : EM Unit) := ⟨fun C s => (inferInstance : Keeping (noteUnwrap (s.head.getD 0))).out C s⟩
  have h3 : Keeping (fun C s => noteUnwrap s.body C s : EM Unit) := ⟨fun C s => (inferInstance : Keeping (noteUnwrap s.body)).out C s⟩
  have h2' := @Keeping.whQ (fun C _ => !C.plan.rawMode && !C.plan.allowedTags.contains c%"head") _ h2
  have h3' := @Keeping.whQ (fun C _ => !C.plan.rawMode && !C.plan.allowedTags.contains c%"body") _ h3
  unfold setupHtml
  exact @Keeping.bind _ _ _ _ _ fun _ => @Keeping.bind _ _ _ _ this fun _ => @Keeping.bind _ _ _ _ h2' fun _ => h3'

instance (name : Str) : Keeping (setupContext name) := by
  have : ∀ c, Keeping (modS fun s => { s with ctxNode := some c, body := c, stack := [s.doc, c] }) := fun _ => Keeping.mod fun _ => fulls_of rfl
  unfold setupContext
  infer_instance

instance : Keeping setup := by
  have : Keeping (fun C => setupContext (C.ctxName.getD []) C : EM Unit) := ⟨fun C s => (inferInstance : Keeping (setupContext (C.ctxName.getD []))).out C s⟩
  unfold setup
  exact @Keeping.iteQ _ _ _ _ _ (@Keeping.iteQ _ _ _ _ _ (@Keeping.whQ _ _ this))

theorem run_keeps [Ok C] : Keeps0 (rootState C) (run C) := by
  have e : (run C) = (iteQ (fun C _ => C.fragment && textContext C) parseTextContext (do
    setup
    parseRange
    Eng.finish) C (rootState C)).2 := rfl
  rw [e]
  unfold iteQ
  split
  · exact (does_steps (inferInstance : Does C parseTextContext) (rootState C)).keeps
  · exact (((inferInstance : Keeping setup).out C _).trans (parseRange_steps (C := C) _).keeps).trans ((inferInstance : Keeping Eng.finish).out C _)

/-- The result of a parse is a document or a document fragment. -/
theorem result_doc (C : Cfg) [Ok C] : ∃ kids, result C = .doc kids := by
  obtain ⟨h1, l, h2⟩ := run_keeps (C := C)
  have hd : (run C).doc = 0 := h1
  have hk : ((run C).n 0).kind = (rootNode C).kind := by
    have e : (run C).heads = (rootNode C).head :: l := h2
    unfold St.heads at e
    cases hh : (run C).heap with
    | nil => rw [hh] at e; simp at e
    | cons a r =>
      rw [hh] at e
      simp only [List.map_cons, List.cons.injEq] at e
      have : (run C).n 0 = a := by rw [n_list, hh]; rfl
      rw [this]
      exact congrArg Prod.fst e.1
  unfold result
  rw [hd, treeF]
  rw [hk]
  have hr : (rootNode C).kind = .fragment ∨ (rootNode C).kind = .document := by
    unfold rootNode
    split
    · exact .inl rfl
    · exact .inr rfl
  rcases hr with e | e <;> rw [e] <;> exact ⟨_, rfl⟩

end
end JH.Eng
