import Verif.Lemmas.EngStartDoes
import Verif.Spec.Engine

/-! What never changes of a node: its kind, name and namespace. -/
namespace JH.Eng

/-- What a parse may make. -/
def HeadOk (C : Cfg) (h : Kind × Str × Option Str) : Prop :=
  h.1 = .text ∨ (h.1 = .element ∧ h.2.2 ≠ none) ∨ (h.1 = .template ∧ h.2.2 ≠ none) ∨ h.1 = .fragment ∨ ((h.1 = .comment ∨ h.1 = .pi) ∧ C.plan.dropComments = false) ∨
    (h.1 = .plain ∧ C.plan.dropDoctype = false)

section
variable {C : Cfg}

theorem LeafOk.headOk {n : ENode} (h : LeafOk C n) : HeadOk C n.head := by
  rcases h.2.2.2.2 with h | h | h
  · exact .inl h
  · exact .inr (.inr (.inr (.inr (.inl h))))
  · exact .inr (.inr (.inr (.inr (.inr h))))

/-- New nodes only come at the end. -/
theorem Step.heads {s t : St} (h : Step C s t) : ∃ l, t.heads = s.heads ++ l ∧ ∀ x ∈ l, HeadOk C x := by
  have none : ∀ {u : St}, u.heads = s.heads → ∃ l, u.heads = s.heads ++ l ∧ ∀ x ∈ l, HeadOk C x := fun hu => ⟨[], by simp [hu], fun _ h => absurd h (by simp)⟩
  have one : ∀ {u : St} {n : ENode}, u.heads = s.heads ++ [n.head] → HeadOk C n.head → ∃ l, u.heads = s.heads ++ l ∧ ∀ x ∈ l, HeadOk C x :=
    fun {_ n} hu hn => ⟨[n.head], hu, fun x hx => by simp at hx; rw [hx]; exact hn⟩
  cases h with
  | ctl h => exact none (heads_of (congrArg Prod.fst h))
  | stack l h => exact none (heads_of rfl)
  | fmt l h => exact none (heads_of rfl)
  | entry e h => exact none (heads_of rfl)
  | garbage n h => exact one (heads_add s n) h.headOk
  | data i f h => exact none (heads_upd _ _ _ fun _ => rfl)
  | leaf n p pos h => exact one ((heads_link _ _ _ _).trans (heads_add s n)) h.headOk
  | elem n l p pos u d h =>
    refine ⟨n.head :: l.map ENode.head, ?_, ?_⟩
    · refine (heads_of rfl).trans ((heads_link ({ s with heap := s.heap ++ n :: l } : St) p pos s.heap.length).trans ?_)
      simp [St.heads]
    · cases h with
      | plain name attrs ns h1 h2 => intro x hx; simp at hx; rw [hx]; exact .inr (.inl ⟨rfl, Option.some_ne_none _⟩)
      | template attrs h =>
        intro x hx
        simp at hx
        rcases hx with rfl | rfl
        · exact .inr (.inr (.inl ⟨rfl, Option.some_ne_none _⟩))
        · exact .inr (.inr (.inr (.inl rfl)))
  | clone e u h => exact one ((heads_of rfl).trans (heads_add s (elementNode e.name e.attrs (some c%"html")))) (.inr (.inl ⟨rfl, Option.some_ne_none _⟩))
  | poNew _ => exact one ((heads_of rfl).trans (heads_add s (elementNode c%"template" [] poNs))) (.inr (.inl ⟨rfl, Option.some_ne_none _⟩))
  | move c p pos h => exact none ((heads_link _ _ _ _).trans (heads_detach _ _))
  | wrap e u b h =>
    refine one (n := elementNode e.name e.attrs (some c%"html")) ?_ (.inr (.inl ⟨rfl, Option.some_ne_none _⟩))
    refine (heads_linkLast _ _ _).trans ((heads_moveChildren _ _ _).trans ?_)
    exact (heads_of rfl).trans (heads_add s _)
  | shrink p l h => exact none (heads_upd _ _ _ fun _ => rfl)
  | clearBody => exact none (heads_clearBody s)
  | dropBody => exact none (heads_two _ _ _ _ _ (fun _ => rfl) fun _ => rfl)
  | closePo i node parent h =>
    exact none ((heads_of rfl).trans (heads_foldl (f := fun s c => s.append parent c) (fun s c => heads_append s _ c) _ _))
  | attrs i as h => exact none (heads_upd _ _ _ fun _ => rfl)

theorem Steps.heads {s t : St} (h : Steps C s t) : ∃ l, t.heads = s.heads ++ l ∧ ∀ x ∈ l, HeadOk C x := by
  replace h := h.chain
  induction h with
  | refl => exact ⟨[], by simp, fun _ h => absurd h (by simp)⟩
  | tail _ st ih =>
    obtain ⟨l, h1, h2⟩ := ih
    obtain ⟨l', h1', h2'⟩ := st.heads
    refine ⟨l ++ l', by rw [h1', h1, List.append_assoc], fun x hx => ?_⟩
    rcases List.mem_append.1 hx with h | h
    · exact h2 x h
    · exact h2' x h

/-! ### The last steps make only copies -/

/-- Every node of `t` is like a node of `s`. -/
def Copies (s t : St) : Prop := ∀ h ∈ t.fulls, h ∈ s.fulls ∨ h = (default : ENode).full

theorem Copies.refl (s : St) : Copies s s := fun _ h => .inl h
theorem Copies.of {s t : St} (h : t.fulls = s.fulls) : Copies s t := fun _ k => .inl (h ▸ k)
theorem Copies.trans {s t u : St} (h : Copies s t) (k : Copies t u) : Copies s u := fun x hx => (k x hx).elim (h x) .inr

/-- A method that makes only copies. -/
class Copying {α : Type} (m : EM α) : Prop where
  out : ∀ C s, Copies s (m C s).2

instance Copying.pure {α : Type} (a : α) : Copying (Pure.pure a : EM α) := ⟨fun _ s => .refl s⟩
instance Copying.q {α : Type} (f : Cfg → St → α) : Copying (Eng.q f) := ⟨fun _ s => .refl s⟩
instance Copying.getS : Copying getS := ⟨fun _ s => .refl s⟩
instance Copying.cfg : Copying cfg := ⟨fun _ s => .refl s⟩
instance Copying.bind {α β : Type} (m : EM α) (f : α → EM β) [h : Copying m] [k : ∀ a, Copying (f a)] : Copying (m >>= f) :=
  ⟨fun C s => (h.out C s).trans ((k _).out C _)⟩
instance Copying.iteQ {α : Type} (c : Cfg → St → Bool) (m₁ m₂ : EM α) [h : Copying m₁] [k : Copying m₂] : Copying (Eng.iteQ c m₁ m₂) := ⟨fun C s => by
  unfold Eng.iteQ
  split
  · exact h.out C s
  · exact k.out C s⟩
instance Copying.ite {α : Type} (c : Prop) [Decidable c] (m₁ m₂ : EM α) [h : Copying m₁] [k : Copying m₂] : Copying (if c then m₁ else m₂) := by
  split
  · exact h
  · exact k
instance Copying.whQ (c : Cfg → St → Bool) (m : EM Unit) [h : Copying m] : Copying (Eng.whQ c m) := ⟨fun C s => by
  unfold Eng.whQ
  split
  · exact h.out C s
  · exact .refl s⟩
theorem Copying.mod {f : St → St} (h : ∀ s, (f s).fulls = s.fulls) : Copying (modS f) := ⟨fun _ s => .of (h s)⟩

instance (p c : Nat) : Copying (removeChild p c) := Copying.mod fun _ => fulls_two _ _ _ _ _ (fun _ => rfl) fun _ => rfl
instance (i : Nat) : Copying (noteDrop i) := Copying.mod fun _ => fulls_of rfl
instance (i : Nat) : Copying (noteUnwrap i) := Copying.mod fun _ => fulls_of rfl
instance (b : Bool) : Copying (noteErr b) := by
  cases b
  · exact ⟨fun _ s => .of rfl⟩
  · exact ⟨fun _ s => .of (fulls_of rfl)⟩
instance (p c : Nat) : Copying (modS fun s => s.linkLast p c) := Copying.mod fun _ => fulls_linkLast _ _ _
instance (p c : Nat) : Copying (modS fun s => s.append p c) := Copying.mod fun _ => fulls_append _ _ _

instance (f : Nat → EM Unit) [h : ∀ i, Copying (f i)] (l : List Nat) : Copying (each f l) := by
  induction l with
  | nil => unfold each; infer_instance
  | cons i l ih => unfold each; infer_instance

theorem full_mem (s : St) (i : Nat) : (s.n i).full ∈ s.fulls ∨ (s.n i).full = (default : ENode).full := by
  by_cases h : i < s.heap.length
  · left
    refine List.mem_map.2 ⟨s.n i, ?_, rfl⟩
    rw [St.n, List.getD_eq_getElem?_getD, List.getElem?_eq_getElem h]
    exact List.getElem_mem h
  · right; rw [n_ge s (Nat.not_lt.1 h)]

theorem allocCopy {s : St} {i : Nat} {n : ENode} (C : Cfg) (h : n.full = (s.n i).full) : Copies s (alloc n C s).2 := by
  intro x hx
  have : (alloc n C s).2.fulls = s.fulls ++ [n.full] := fulls_add s n
  rw [this] at hx
  rcases List.mem_append.1 hx with hx | hx
  · exact .inl hx
  · simp at hx; rw [hx, h]; exact full_mem s i

instance (dropped unwrapped : List Nat) (f i : Nat) : Copying (cloneF dropped unwrapped f i) := by
  induction f generalizing i with
  | zero => exact ⟨fun C s => allocCopy (s := s) (i := i) C rfl⟩
  | succ f ih =>
    refine ⟨fun C s => ?_⟩
    have h1 : Copies s (alloc { (s.n i) with children := [], parent := none, content := none } C s).2 := allocCopy (s := s) (i := i) C rfl
    have h2 : ∀ c, Copying (do
        iteQ (fun _ _ => dropped.contains i) (noteDrop c) (whQ (fun _ _ => unwrapped.contains i) (noteUnwrap c))
        each (fun k => do
          let d ← cloneF dropped unwrapped f k
          modS fun s => s.linkLast c d) (s.n i).children
        each (fun k => do
          let d ← cloneF dropped unwrapped f k
          modS fun s => (s.upd d fun n => { n with parent := some c }).upd c fun n => { n with content := some d }) (s.n i).content.toList
        pure c) := by
      intro c
      have h3 : ∀ d, Copying (modS fun s => (s.upd d fun n => { n with parent := some c }).upd c fun n => { n with content := some d }) := fun d =>
        Copying.mod fun _ => fulls_two _ _ _ _ _ (fun _ => rfl) fun _ => rfl
      infer_instance
    exact h1.trans ((h2 _).out C _)

instance (m : Nat) : Copying (clearMarker m) := Copying.mod fun _ =>
  fulls_upd' _ _ (fun _ => rfl) (fulls_foldl (f := fun s c => s.upd c fun n => { n with parent := none }) (fun s c => fulls_upd s c _ fun _ => rfl) _ _)

instance (dropped unwrapped : List Nat) (m o : Nat) : Copying (fillMarker dropped unwrapped m o) := by unfold fillMarker; infer_instance

instance (dropped unwrapped : List Nat) (option : Option Nat) (span : Option (Nat × Nat)) (size : Nat) (l : List (Nat × Nat)) (r : Nat) :
    Copying (fillMarkers dropped unwrapped option span size l r) := by
  induction l generalizing r with
  | nil => unfold fillMarkers; infer_instance
  | cons x l ih =>
    obtain ⟨m, p⟩ := x
    rw [fillMarkers.eq_def]
    simp only
    cases option with
    | none => infer_instance
    | some o => infer_instance

instance (dropped unwrapped : List Nat) (i r : Nat) : Copying (projectSelect dropped unwrapped i r) := by unfold projectSelect; infer_instance

instance (dropped unwrapped : List Nat) (f : Nat) (l : List Nat) (r : Nat) : Copying (projectLoop dropped unwrapped f l r) := by
  induction f generalizing l r with
  | zero => rw [projectLoop.eq_def]; infer_instance
  | succ f ih =>
    cases l with
    | nil => rw [projectLoop.eq_def]; infer_instance
    | cons i l =>
      rw [projectLoop.eq_def]
      simp only
      refine @Copying.bind _ _ _ _ _ fun n => ?_
      by_cases h : n.kind ≠ .element
      · rw [if_pos h]; infer_instance
      · rw [if_neg h]; infer_instance

instance : Copying project := by unfold project; infer_instance

instance (i : Nat) : Copying (dropOne i) := by
  unfold dropOne
  refine @Copying.bind _ _ _ _ _ fun p => ?_
  cases p with
  | none => exact Copying.pure ()
  | some p => infer_instance

instance : Copying dropAll := by unfold dropAll; infer_instance

theorem fulls_setParents (s : St) (l : List Nat) (p : Nat) : (s.setParents l p).fulls = s.fulls :=
  fulls_foldl (f := fun s c => s.upd c fun n => { n with parent := some p }) (fun s c => fulls_upd s c _ fun _ => rfl) _ _

theorem fulls_splice (s : St) (p c : Nat) (l : List Nat) : (s.splice p c l).fulls = s.fulls := fulls_upd _ _ _ fun _ => rfl

instance (i : Nat) : Copying (unwrapOne i) := by
  unfold unwrapOne
  refine @Copying.bind _ _ _ _ _ fun p => ?_
  cases p with
  | none => exact Copying.pure ()
  | some p =>
    have : Copying (modS fun s => (((s.upd i fun n => { n with children := [] }).setParents (s.n i).children p).splice p i (s.n i).children).upd i
        fun n => { n with parent := none }) := Copying.mod fun s =>
      fulls_upd' _ _ (fun _ => rfl) ((fulls_splice _ _ _ _).trans ((fulls_setParents _ _ _).trans (fulls_upd _ _ _ fun _ => rfl)))
    simp only
    infer_instance

instance : Copying unwrapAll := by unfold unwrapAll; infer_instance

instance : Copying finishContext := by
  refine ⟨fun C s => ?_⟩
  unfold finishContext
  split
  · exact .refl s
  · split
    · exact .of (fulls_upd' _ _ (fun _ => rfl) (fulls_upd' _ _ (fun _ => rfl) ((fulls_splice _ _ _ _).trans (fulls_setParents _ _ _))))
    · exact .refl s

instance : Copying finishShell := by
  unfold finishShell
  have : Copying (fun C s => removeChild (s.html.getD 0) s.body C s : EM Unit) := ⟨fun C s => (inferInstance : Copying (removeChild (s.html.getD 0) s.body)).out C s⟩
  exact @Copying.whQ _ _ this

instance : Copying finish := by unfold finish; infer_instance

theorem head_mem (s : St) (i : Nat) : (s.n i).head ∈ s.heads ∨ (s.n i).head = (default : ENode).head := by
  rcases full_mem s i with h | h
  · left; rw [heads_fulls]; exact List.mem_map.2 ⟨_, h, rfl⟩
  · right; exact congrArg Prod.fst h

theorem Copies.heads {s t : St} (h : Copies s t) : ∀ x ∈ t.heads, x ∈ s.heads ∨ x = (default : ENode).head := by
  intro x hx
  rw [heads_fulls] at hx ⊢
  obtain ⟨y, hy, rfl⟩ := List.mem_map.1 hx
  rcases h y hy with h | h
  · exact .inl (List.mem_map.2 ⟨y, h, rfl⟩)
  · exact .inr (congrArg Prod.fst h)

theorem heads_setParents (s : St) (l : List Nat) (p : Nat) : (s.setParents l p).heads = s.heads := by
  rw [heads_fulls, fulls_setParents, ← heads_fulls]

theorem heads_splice (s : St) (p c : Nat) (l : List Nat) : (s.splice p c l).heads = s.heads := by
  rw [heads_fulls, fulls_splice, ← heads_fulls]

/-! ### Setting up -/

/-- A method that makes nodes of the allowed kinds. -/
class Making {α : Type} (C : Cfg) (m : EM α) : Prop where
  out : ∀ s, (∀ h ∈ s.heads, HeadOk C h ∨ h.1 = .document) → ∀ h ∈ (m C s).2.heads, HeadOk C h ∨ h.1 = .document

instance Making.bind {α β : Type} (m : EM α) (f : α → EM β) [h : Making C m] [k : ∀ a, Making C (f a)] : Making C (m >>= f) :=
  ⟨fun s hs => (k _).out _ (h.out s hs)⟩
instance (priority := low) Making.does {α : Type} (m : EM α) [h : Does C m] : Making C m := ⟨fun s hs x hx => by
  obtain ⟨l, h1, h2⟩ := (h.out s).heads
  rw [h1] at hx
  rcases List.mem_append.1 hx with hx | hx
  · exact hs x hx
  · exact .inl (h2 x hx)⟩
instance (priority := low) Making.copying {α : Type} (m : EM α) [h : Copying m] : Making C m := ⟨fun s hs x hx => by
  rcases (h.out C s).heads x hx with h | h
  · exact hs x h
  · rw [h]; exact .inl (.inl rfl)⟩
instance Making.iteQ {α : Type} (c : Cfg → St → Bool) (m₁ m₂ : EM α) [h : Making C m₁] [k : Making C m₂] : Making C (Eng.iteQ c m₁ m₂) := ⟨fun s hs => by
  unfold Eng.iteQ
  split
  · exact h.out s hs
  · exact k.out s hs⟩
instance Making.whQ (c : Cfg → St → Bool) (m : EM Unit) [h : Making C m] : Making C (Eng.whQ c m) := ⟨fun s hs => by
  unfold Eng.whQ
  split
  · exact h.out s hs
  · exact hs⟩
theorem Making.mod {f : St → St} (h : ∀ s, (f s).heads = s.heads) : Making C (modS f) := ⟨fun s hs => by
  show ∀ x ∈ (f s).heads, _
  rw [h]; exact hs⟩

instance (p : Nat) (name : Str) (attrs : Attrs) (ns : Str) : Making C (addChild p (elementNode name attrs (some ns))) := ⟨fun s hs x hx => by
  have h1 : (addChild p (elementNode name attrs (some ns)) C s).2.heads = s.heads ++ [(elementNode name attrs (some ns)).head] :=
    (heads_linkLast _ _ _).trans (heads_add _ _)
  rw [h1] at hx
  rcases List.mem_append.1 hx with hx | hx
  · exact hs x hx
  · simp at hx; rw [hx]; exact .inl (.inr (.inl ⟨rfl, Option.some_ne_none _⟩))⟩

instance : Making C buildShell := by
  have : ∀ h hd b, Making C (modS fun s => { s with html := some h, head := some hd, body := b, stack := [s.doc, h, b] }) := fun _ _ _ =>
    Making.mod fun _ => heads_of rfl
  unfold buildShell
  infer_instance

instance : Making C buildRoot := by
  refine ⟨fun s hs x hx => ?_⟩
  have h1 : (buildRoot C s).2.heads = s.heads ++ [(if C.fragment then ({ kind := .fragment, name := c%"#document-fragment" } : ENode)
    else { kind := .document, name := c%"#document" }).head] := heads_add s _
  rw [h1] at hx
  rcases List.mem_append.1 hx with hx | hx
  · exact hs x hx
  · simp only [List.mem_singleton] at hx
    rw [hx]
    split
    · exact .inl (.inr (.inr (.inr (.inl rfl))))
    · exact .inr rfl

instance : Making C setupHtml := by
  have : Making C (modS fun s => { s with ctxNode := s.html }) := Making.mod fun _ => heads_of rfl
  have h2 : Copying (fun C s => noteUnwrap (s.head.getD 0) C s : EM Unit) := ⟨fun C s => (inferInstance : Copying (noteUnwrap (s.head.getD 0))).out C s⟩
  have h3 : Copying (fun C s => noteUnwrap s.body C s : EM Unit) := ⟨fun C s => (inferInstance : Copying (noteUnwrap s.body)).out C s⟩
  have h2' := @Copying.whQ (fun C _ => !C.plan.rawMode && !C.plan.allowedTags.contains c%"head") _ h2
  have h3' := @Copying.whQ (fun C _ => !C.plan.rawMode && !C.plan.allowedTags.contains c%"body") _ h3
  unfold setupHtml
  exact @Making.bind _ _ _ _ _ inferInstance fun _ => @Making.bind _ _ _ _ _ this fun _ => @Making.bind _ _ _ _ _ (@Making.copying _ _ _ h2') fun _ =>
    @Making.copying _ _ _ h3'

instance (name : Str) : Making C (setupContext name) := by
  have : ∀ c, Making C (modS fun s => { s with ctxNode := some c, body := c, stack := [s.doc, c] }) := fun _ => Making.mod fun _ => heads_of rfl
  unfold setupContext
  infer_instance

instance : Making C setup := by
  have : Making C (fun C => setupContext (C.ctxName.getD []) C : EM Unit) := ⟨fun s => (inferInstance : Making C (setupContext (C.ctxName.getD []))).out s⟩
  unfold setup
  exact @Making.iteQ _ _ _ _ _ inferInstance (@Making.iteQ _ _ _ _ _ inferInstance (@Making.whQ _ _ _ this))

instance [Ok C] : Making C parseRange := @Making.does _ _ _ ⟨fun s => parseRange_steps s⟩

instance : Making C parseTextContext := by
  have h1 : Making C (fun C => rawLiteral C.html C : EM Unit) := ⟨fun s => (Making.does (C := C) (rawLiteral C.html)).out s⟩
  have h2 : Making C (do
      let t ← orErr fun C => cleanText C true C.html
      let t ← q fun C _ => if C.ctxName = some c%"textarea" && t.head? = some '\n' then t.tail else t
      whQ (fun _ _ => !t.isEmpty) (do
        let d ← q fun _ s => s.doc
        appendNew d (textNode t))) := by
    have := rcdataText_does C
    infer_instance
  unfold parseTextContext
  exact @Making.iteQ _ _ _ _ _ h2 h1

/-- The nodes at the end of a parse. -/
theorem run_heads [Ok C] : ∀ h ∈ (run C).heads, HeadOk C h ∨ h.1 = .document := by
  have : Making C parse := by unfold parse; infer_instance
  exact this.out (init C) fun h hh => absurd hh (by simp [St.heads, init])

/-! ### From the heap to the tree -/

/-- How the tree shows a node. -/
def shown (n : ENode) (kids : List Node) (tpl : Bool) (content : List Node) : Node :=
  match n.kind with
  | .text => .text n.data
  | .comment => .comment n.data
  | .pi => .pi n.data
  | .plain => .doctype (n.doctype.1.getD []) n.doctype.2.1 n.doctype.2.2
  | .document => .doc kids
  | .fragment => .doc kids
  | .element => .elem n.name n.ns n.attrs kids tpl content
  | .template => .elem n.name n.ns n.attrs kids tpl content

/-- What holds of the nodes in the heap that can be reached, as far as the tree shows them, holds of every node in the tree. -/
theorem treeF_reach {s : St} {P : Node → Prop} {G : Nat → Prop} (h0 : P (.text []))
    (h1 : ∀ i, G i → ∀ c ∈ (s.n i).children, G c) (h2 : ∀ i c, G i → (s.n i).content = some c → ∀ k ∈ (s.n c).children, G k)
    (h : ∀ i kids tpl content, G i → P (shown (s.n i) kids tpl content)) : ∀ f i, G i → Spec.Everywhere P (treeF s f i) := by
  intro f
  induction f with
  | zero => intro i _; simpa only [treeF, Spec.Everywhere] using h0
  | succ f ih =>
    intro i hG
    have hl : ∀ l : List Nat, (∀ c ∈ l, G c) → Spec.EverywhereL P (l.map (treeF s f)) := by
      intro l
      induction l with
      | nil => intro _; simp [Spec.EverywhereL]
      | cons x l ihl =>
        intro hx
        simp only [List.map_cons, Spec.EverywhereL]
        exact ⟨ih x (hx x (by simp)), ihl fun c hc => hx c (by simp [hc])⟩
    have hi := h i ((s.n i).children.map (treeF s f))
    unfold treeF
    unfold shown at hi
    simp only
    cases hk : (s.n i).kind with
    | text => have := hi false [] hG; simp only [hk] at this; simpa only [Spec.Everywhere] using this
    | comment => have := hi false [] hG; simp only [hk] at this; simpa only [Spec.Everywhere] using this
    | pi => have := hi false [] hG; simp only [hk] at this; simpa only [Spec.Everywhere] using this
    | plain => have := hi false [] hG; simp only [hk] at this; simpa only [Spec.Everywhere] using this
    | document => have := hi false [] hG; simp only [hk] at this; simp only [Spec.Everywhere]; exact ⟨this, hl _ (h1 i hG)⟩
    | fragment => have := hi false [] hG; simp only [hk] at this; simp only [Spec.Everywhere]; exact ⟨this, hl _ (h1 i hG)⟩
    | element =>
      have := hi false [] hG; simp only [hk] at this; simp only [Spec.Everywhere]
      exact ⟨this, hl _ (h1 i hG), fun h => absurd h (by simp)⟩
    | template =>
      have := hi (s.n i).content.isSome (match (s.n i).content with | some c => ((s.n c).children.map (treeF s f)) | none => []) hG
      simp only [hk] at this
      simp only [Spec.Everywhere]
      refine ⟨this, hl _ (h1 i hG), fun _ => ?_⟩
      split
      · next c hc => exact hl _ (h2 i c hG hc)
      · simp [Spec.EverywhereL]

theorem treeF_all {s : St} {P : Node → Prop} (h0 : P (.text [])) (h : ∀ i kids tpl content, P (shown (s.n i) kids tpl content)) :
    ∀ f i, Spec.Everywhere P (treeF s f i) := fun f i =>
  treeF_reach (G := fun _ => True) h0 (fun _ _ _ _ => trivial) (fun _ _ _ _ _ _ => trivial) (fun i k t c _ => h i k t c) f i trivial

theorem run_kind [Ok C] (i : Nat) : HeadOk C ((run C).n i).head ∨ ((run C).n i).kind = .document := by
  rcases head_mem (run C) i with h | h
  · exact run_heads _ h
  · rw [h]; exact .inl (.inl rfl)

end

end JH.Eng
