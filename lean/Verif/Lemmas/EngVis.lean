import Verif.Lemmas.EngHeads

/-! The texts in the tree have no invisible characters, if the policy removes them. -/
namespace JH.Eng

section
variable {C : Cfg}

/-- All texts in the heap. -/
def TextsOk (C : Cfg) (s : St) : Prop := ∀ i, TextOk C (s.n i)

theorem textsOk_heap {s t : St} (h : TextsOk C s) (k : t.heap = s.heap) : TextsOk C t := fun i => by
  have : t.n i = s.n i := by unfold St.n; rw [k]
  rw [this]; exact h i

theorem textsOk_upd {s : St} (h : TextsOk C s) (i : Nat) (f : ENode → ENode) (hf : TextOk C (s.n i) → TextOk C (f (s.n i))) : TextsOk C (s.upd i f) := by
  intro j
  by_cases hj : i = j
  · subst hj
    by_cases hl : i < s.heap.length
    · have : (s.upd i f).n i = f (s.n i) := by simp [St.upd, St.n, List.getD_eq_getElem?_getD, hl]
      rw [this]; exact hf (h i)
    · have : (s.upd i f).n i = s.n i := by
        rw [n_ge _ (by simpa [St.upd] using Nat.not_lt.1 hl), n_ge _ (Nat.not_lt.1 hl)]
      rw [this]; exact h i
  · have : (s.upd i f).n j = s.n j := by simp [St.upd, St.n, List.getD_eq_getElem?_getD, List.getElem?_set, hj]
    rw [this]; exact h j

theorem textsOk_same {s : St} (h : TextsOk C s) (i : Nat) (f : ENode → ENode) (hf : ∀ n, (f n).kind = n.kind ∧ (f n).data = n.data := by exact fun _ => ⟨rfl, rfl⟩) :
    TextsOk C (s.upd i f) :=
  textsOk_upd h i f fun k e => by rw [(hf _).2]; exact k ((hf _).1 ▸ e)

theorem textsOk_add {s : St} (h : TextsOk C s) {n : ENode} (k : TextOk C n) : TextsOk C (s.add n) := by
  intro j
  by_cases hj : j < s.heap.length
  · rw [n_add_lt s n hj]; exact h j
  · by_cases hj' : j = s.heap.length
    · subst hj'; rw [n_add_eq]; exact k
    · rw [n_ge]
      · exact fun _ => vis_of fun c hc => absurd hc (by simp [default, instInhabitedENode.default])
      · rw [len_add]; omega

theorem textsOk_link {s : St} (h : TextsOk C s) (p pos c : Nat) : TextsOk C (s.link p pos c) :=
  textsOk_same (textsOk_same h _ _) _ _

theorem textsOk_linkLast {s : St} (h : TextsOk C s) (p c : Nat) : TextsOk C (s.linkLast p c) :=
  textsOk_same (textsOk_same h _ _) _ _

theorem textsOk_append {s : St} (h : TextsOk C s) (p c : Nat) : TextsOk C (s.append p c) := by
  unfold St.append
  split
  · split
    · next ht =>
      rw [Bool.and_eq_true] at ht
      refine textsOk_upd h _ _ fun k e => ?_
      have h1 := k e
      have h2 := h c (isText_kind ht.1)
      exact vis_append _ _
    · exact textsOk_linkLast h _ _
  · exact textsOk_linkLast h _ _

theorem textsOk_foldl {f : St → Nat → St} (hf : ∀ s c, TextsOk C s → TextsOk C (f s c)) (l : List Nat) : ∀ s, TextsOk C s → TextsOk C (l.foldl f s) := by
  induction l with
  | nil => exact fun _ h => h
  | cons x l ih => exact fun s h => ih _ (hf s x h)

theorem textsOk_detach {s : St} (h : TextsOk C s) (c : Nat) : TextsOk C (s.detach c) := by
  unfold St.detach
  split
  · exact h
  · split
    · exact textsOk_same (textsOk_same h _ _) _ _
    · exact h

theorem textsOk_moveChildren {s : St} (h : TextsOk C s) (a b : Nat) : TextsOk C (s.moveChildren a b) :=
  textsOk_foldl (f := fun s c => s.appendMoved b c) (fun _ _ h => textsOk_linkLast h _ _) _ _ (textsOk_same h _ _)

theorem textsOk_unparent {s : St} (h : TextsOk C s) (l : List Nat) : TextsOk C (l.foldl (fun s c => s.upd c fun n => { n with parent := none }) s) :=
  textsOk_foldl (f := fun s c => s.upd c fun n => { n with parent := none }) (fun _ _ h => textsOk_same h _ _) _ _ h

theorem Step.textsOk {s t : St} (st : Step C s t) (h : TextsOk C s) : TextsOk C t := by
  cases st with
  | ctl e => exact textsOk_heap h (congrArg Prod.fst e)
  | stack l _ => exact textsOk_heap h rfl
  | fmt l _ => exact textsOk_heap h rfl
  | entry e _ => exact textsOk_heap h rfl
  | garbage n _ k => exact textsOk_add h k
  | data i f _ k => exact textsOk_upd h _ _ fun k' e => k _ (k' e)
  | leaf n p pos _ k => exact textsOk_link (textsOk_add h k) _ _ _
  | elem n l p pos u d k =>
    refine textsOk_heap (s := (({ s with heap := s.heap ++ n :: l } : St).link p pos s.heap.length)) (textsOk_link ?_ _ _ _) rfl
    cases k with
    | plain name attrs ns h1 h2 => exact textsOk_add h (notText fun e => by cases e)
    | template attrs _ =>
      have := textsOk_add (textsOk_add h (n := { kind := .template, name := c%"template", ns := some c%"html", attrs := attrs, content := some (s.heap.length + 1) })
        (notText fun e => by cases e)) (n := { kind := .fragment, name := c%"#document-fragment", parent := some s.heap.length }) (notText fun e => by cases e)
      exact textsOk_heap this (by simp [St.add])
  | clone e u _ => exact textsOk_heap (textsOk_add h (n := elementNode e.name e.attrs (some c%"html")) (notText fun e => by cases e)) rfl
  | poNew _ => exact textsOk_heap (textsOk_add h (n := elementNode c%"template" [] poNs) (notText fun e => by cases e)) rfl
  | move c p pos _ => exact textsOk_link (textsOk_detach h _) _ _ _
  | wrap e u b _ =>
    refine textsOk_linkLast (textsOk_moveChildren ?_ _ _) _ _
    exact textsOk_heap (textsOk_add h (n := elementNode e.name e.attrs (some c%"html")) (notText fun e => by cases e)) rfl
  | shrink p l _ => exact textsOk_same h _ _
  | clearBody => exact textsOk_same (textsOk_unparent h _) _ _
  | dropBody => exact textsOk_same (textsOk_same h _ _) _ _
  | closePo i node parent _ =>
    exact textsOk_heap (textsOk_foldl (f := fun s c => s.append parent c) (fun _ _ h => textsOk_append h _ _) _ _ h) rfl
  | attrs i as _ => exact textsOk_same h _ _

theorem Steps.textsOk {s t : St} (st : Steps C s t) (h : TextsOk C s) : TextsOk C t := by
  replace st := st.chain
  induction st with
  | refl => exact h
  | tail _ st ih => exact st.textsOk ih

/-- A method after which the texts are still all right. -/
class Showing {α : Type} (C : Cfg) (m : EM α) : Prop where
  out : ∀ s, TextsOk C s → TextsOk C (m C s).2

instance Showing.bind {α β : Type} (m : EM α) (f : α → EM β) [h : Showing C m] [k : ∀ a, Showing C (f a)] : Showing C (m >>= f) :=
  ⟨fun s hs => (k _).out _ (h.out s hs)⟩
instance Showing.pure {α : Type} (a : α) : Showing C (Pure.pure a : EM α) := ⟨fun _ h => h⟩
instance Showing.q {α : Type} (f : Cfg → St → α) : Showing C (Eng.q f) := ⟨fun _ h => h⟩
instance Showing.getS : Showing C getS := ⟨fun _ h => h⟩
instance Showing.cfg : Showing C cfg := ⟨fun _ h => h⟩
instance (priority := low) Showing.does {α : Type} (m : EM α) [h : Does C m] : Showing C m := ⟨fun s hs => (h.out s).textsOk hs⟩
instance Showing.iteQ {α : Type} (c : Cfg → St → Bool) (m₁ m₂ : EM α) [h : Showing C m₁] [k : Showing C m₂] : Showing C (Eng.iteQ c m₁ m₂) := ⟨fun s hs => by
  unfold Eng.iteQ
  split
  · exact h.out s hs
  · exact k.out s hs⟩
instance Showing.ite {α : Type} (c : Prop) [Decidable c] (m₁ m₂ : EM α) [h : Showing C m₁] [k : Showing C m₂] : Showing C (if c then m₁ else m₂) := by
  split
  · exact h
  · exact k
instance Showing.whQ (c : Cfg → St → Bool) (m : EM Unit) [h : Showing C m] : Showing C (Eng.whQ c m) := ⟨fun s hs => by
  unfold Eng.whQ
  split
  · exact h.out s hs
  · exact hs⟩
theorem Showing.mod {f : St → St} (h : ∀ s, TextsOk C s → TextsOk C (f s)) : Showing C (modS f) := ⟨h⟩
theorem Showing.heap {f : St → St} (h : ∀ s, (f s).heap = s.heap) : Showing C (modS f) := ⟨fun s hs => textsOk_heap hs (h s)⟩

instance (p c : Nat) : Showing C (removeChild p c) := Showing.mod fun _ h => textsOk_same (textsOk_same h _ _) _ _
instance (i : Nat) : Showing C (noteDrop i) := Showing.heap fun _ => rfl
instance (i : Nat) : Showing C (noteUnwrap i) := Showing.heap fun _ => rfl
instance (b : Bool) : Showing C (noteErr b) := by
  cases b
  · exact ⟨fun _ h => h⟩
  · exact ⟨fun s h => textsOk_heap h rfl⟩
instance (p c : Nat) : Showing C (modS fun s => s.linkLast p c) := Showing.mod fun _ h => textsOk_linkLast h _ _
instance (p c : Nat) : Showing C (modS fun s => s.append p c) := Showing.mod fun _ h => textsOk_append h _ _

instance (f : Nat → EM Unit) [h : ∀ i, Showing C (f i)] (l : List Nat) : Showing C (each f l) := by
  induction l with
  | nil => unfold each; infer_instance
  | cons i l ih => unfold each; infer_instance

theorem showCopy {s : St} {n : ENode} (h : TextsOk C s) (i : Nat) (k : n.kind = (s.n i).kind) (d : n.data = (s.n i).data) : TextsOk C (alloc n C s).2 :=
  textsOk_add h fun e => by rw [d]; exact h i (k ▸ e)

instance (dropped unwrapped : List Nat) (f i : Nat) : Showing C (cloneF dropped unwrapped f i) := by
  induction f generalizing i with
  | zero => exact ⟨fun s h => showCopy h i rfl rfl⟩
  | succ f ih =>
    refine ⟨fun s h => ?_⟩
    have h1 : TextsOk C (alloc { (s.n i) with children := [], parent := none, content := none } C s).2 := showCopy h i rfl rfl
    have h2 : ∀ c, Showing C (do
        iteQ (fun _ _ => dropped.contains i) (noteDrop c) (whQ (fun _ _ => unwrapped.contains i) (noteUnwrap c))
        each (fun k => do
          let d ← cloneF dropped unwrapped f k
          modS fun s => s.linkLast c d) (s.n i).children
        each (fun k => do
          let d ← cloneF dropped unwrapped f k
          modS fun s => (s.upd d fun n => { n with parent := some c }).upd c fun n => { n with content := some d }) (s.n i).content.toList
        pure c) := by
      intro c
      have h3 : ∀ d, Showing C (modS fun s => (s.upd d fun n => { n with parent := some c }).upd c fun n => { n with content := some d }) := fun d =>
        Showing.mod fun _ h => textsOk_same (textsOk_same h _ _) _ _
      infer_instance
    exact (h2 _).out _ h1

instance (m : Nat) : Showing C (clearMarker m) := Showing.mod fun _ h => textsOk_same (textsOk_unparent h _) _ _

instance (dropped unwrapped : List Nat) (m o : Nat) : Showing C (fillMarker dropped unwrapped m o) := by unfold fillMarker; infer_instance

instance (dropped unwrapped : List Nat) (option : Option Nat) (span : Option (Nat × Nat)) (size : Nat) (l : List (Nat × Nat)) (r : Nat) :
    Showing C (fillMarkers dropped unwrapped option span size l r) := by
  induction l generalizing r with
  | nil => unfold fillMarkers; infer_instance
  | cons x l ih =>
    obtain ⟨m, p⟩ := x
    rw [fillMarkers.eq_def]
    simp only
    cases option with
    | none => infer_instance
    | some o => infer_instance

instance (dropped unwrapped : List Nat) (i r : Nat) : Showing C (projectSelect dropped unwrapped i r) := by unfold projectSelect; infer_instance

instance (dropped unwrapped : List Nat) (f : Nat) (l : List Nat) (r : Nat) : Showing C (projectLoop dropped unwrapped f l r) := by
  induction f generalizing l r with
  | zero => rw [projectLoop.eq_def]; infer_instance
  | succ f ih =>
    cases l with
    | nil => rw [projectLoop.eq_def]; infer_instance
    | cons i l =>
      rw [projectLoop.eq_def]
      simp only
      refine @Showing.bind _ _ _ _ _ _ fun n => ?_
      by_cases h : n.kind ≠ .element
      · rw [if_pos h]; infer_instance
      · rw [if_neg h]; infer_instance

instance : Showing C project := by unfold project; infer_instance

instance (i : Nat) : Showing C (dropOne i) := by
  unfold dropOne
  refine @Showing.bind _ _ _ _ _ _ fun p => ?_
  cases p with
  | none => exact Showing.pure ()
  | some p => infer_instance

instance : Showing C dropAll := by unfold dropAll; infer_instance

theorem textsOk_setParents {s : St} (h : TextsOk C s) (l : List Nat) (p : Nat) : TextsOk C (s.setParents l p) :=
  textsOk_foldl (f := fun s c => s.upd c fun n => { n with parent := some p }) (fun _ _ h => textsOk_same h _ _) _ _ h

theorem textsOk_splice {s : St} (h : TextsOk C s) (p c : Nat) (l : List Nat) : TextsOk C (s.splice p c l) := textsOk_same h _ _

instance (i : Nat) : Showing C (unwrapOne i) := by
  unfold unwrapOne
  refine @Showing.bind _ _ _ _ _ _ fun p => ?_
  cases p with
  | none => exact Showing.pure ()
  | some p =>
    have : Showing C (modS fun s => (((s.upd i fun n => { n with children := [] }).setParents (s.n i).children p).splice p i (s.n i).children).upd i
        fun n => { n with parent := none }) := Showing.mod fun s h =>
      textsOk_same (textsOk_splice (textsOk_setParents (textsOk_same h _ _) _ _) _ _ _) _ _
    simp only
    infer_instance

instance : Showing C unwrapAll := by unfold unwrapAll; infer_instance

instance : Showing C finishContext := by
  refine ⟨fun s h => ?_⟩
  unfold finishContext
  split
  · exact h
  · split
    · exact textsOk_same (textsOk_same (textsOk_splice (textsOk_setParents h _ _) _ _ _) _ _) _ _
    · exact h

instance : Showing C finishShell := by
  unfold finishShell
  have : Showing C (fun C s => removeChild (s.html.getD 0) s.body C s : EM Unit) := ⟨fun s => (inferInstance : Showing C (removeChild (s.html.getD 0) s.body)).out s⟩
  exact @Showing.whQ _ _ _ this

instance : Showing C finish := by unfold finish; infer_instance

instance (p : Nat) (name : Str) (attrs : Attrs) (ns : Option Str) : Showing C (addChild p (elementNode name attrs ns)) := ⟨fun _ h =>
  textsOk_linkLast (textsOk_add h (notText fun e => by cases e)) _ _⟩

instance : Showing C buildShell := by
  have : ∀ h hd b, Showing C (modS fun s => { s with html := some h, head := some hd, body := b, stack := [s.doc, h, b] }) := fun _ _ _ => Showing.heap fun _ => rfl
  unfold buildShell
  infer_instance

instance : Showing C buildRoot := by
  refine ⟨fun s h => textsOk_add h ?_⟩
  dsimp only
  split <;> exact notText fun e => by cases e

instance : Showing C setupHtml := by
  have : Showing C (modS fun s => { s with ctxNode := s.html }) := Showing.heap fun _ => rfl
  have h2 : Showing C (fun C s => noteUnwrap (s.head.getD 0) C s : EM Unit) := ⟨fun s => (inferInstance : Showing C (noteUnwrap (s.head.getD 0))).out s⟩
  have h3 : Showing C (fun C s => noteUnwrap s.body C s : EM Unit) := ⟨fun s => (inferInstance : Showing C (noteUnwrap s.body)).out s⟩
  unfold setupHtml
  exact @Showing.bind _ _ _ _ _ inferInstance fun _ => @Showing.bind _ _ _ _ _ this fun _ => @Showing.bind _ _ _ _ _ (@Showing.whQ _ _ _ h2) fun _ =>
    @Showing.whQ _ _ _ h3

instance (name : Str) : Showing C (setupContext name) := by
  have : ∀ c, Showing C (modS fun s => { s with ctxNode := some c, body := c, stack := [s.doc, c] }) := fun _ => Showing.heap fun _ => rfl
  unfold setupContext
  infer_instance

instance : Showing C setup := by
  have : Showing C (fun C => setupContext (C.ctxName.getD []) C : EM Unit) := ⟨fun s => (inferInstance : Showing C (setupContext (C.ctxName.getD []))).out s⟩
  unfold setup
  exact @Showing.iteQ _ _ _ _ _ inferInstance (@Showing.iteQ _ _ _ _ _ inferInstance (@Showing.whQ _ _ _ this))

instance [Ok C] : Showing C parseRange := @Showing.does _ _ _ ⟨fun s => parseRange_steps s⟩

instance : Showing C parseTextContext := by
  have h1 : Showing C (fun C => rawLiteral C.html C : EM Unit) := ⟨fun s => (Showing.does (C := C) (rawLiteral C.html)).out s⟩
  have h2 := rcdataText_does C
  unfold parseTextContext
  exact @Showing.iteQ _ _ _ _ _ inferInstance h1

/-- The texts at the end of a parse. -/
theorem run_texts [Ok C] : TextsOk C (run C) := by
  have : Showing C parse := by unfold parse; infer_instance
  exact this.out (init C) fun i _ => by
    rw [n_ge _ (by simp [init])]
    exact vis_of fun c hc => absurd hc (by simp [default, instInhabitedENode.default])

end

end JH.Eng
