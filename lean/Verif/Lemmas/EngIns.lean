import Verif.Lemmas.EngDoes

/-! Inserting elements consists of primitive changes. -/
namespace JH.Eng

/-! ### Nodes keep their kind, name and namespace -/

/-- No node disappears or changes its kind, name or namespace. -/
def Same (s t : St) : Prop :=
  s.heap.length ≤ t.heap.length ∧ ∀ i, i < s.heap.length → (t.n i).kind = (s.n i).kind ∧ (t.n i).name = (s.n i).name ∧ (t.n i).ns = (s.n i).ns

theorem Same.refl (s : St) : Same s s := ⟨Nat.le_refl _, fun _ _ => ⟨rfl, rfl, rfl⟩⟩

theorem Same.trans {s t u : St} (h : Same s t) (k : Same t u) : Same s u :=
  ⟨Nat.le_trans h.1 k.1, fun i hi =>
    ⟨(k.2 i (Nat.lt_of_lt_of_le hi h.1)).1.trans (h.2 i hi).1, (k.2 i (Nat.lt_of_lt_of_le hi h.1)).2.1.trans (h.2 i hi).2.1,
      (k.2 i (Nat.lt_of_lt_of_le hi h.1)).2.2.trans (h.2 i hi).2.2⟩⟩

theorem Same.of_heap {s t : St} (h : t.heap = s.heap) : Same s t := by
  refine ⟨by rw [h]; exact Nat.le_refl _, fun i _ => ?_⟩
  have : t.n i = s.n i := by unfold St.n; rw [h]
  rw [this]; exact ⟨rfl, rfl, rfl⟩

theorem Same.grow (s t : St) (l : List ENode) (h : t.heap = s.heap ++ l) : Same s t := by
  refine ⟨by rw [h]; simp, fun i hi => ?_⟩
  have : t.n i = s.n i := by
    unfold St.n; rw [h]
    simp [List.getD_eq_getElem?_getD, List.getElem?_append_left hi]
  rw [this]; exact ⟨rfl, rfl, rfl⟩

theorem Same.add (s : St) (n : ENode) : Same s (s.add n) := Same.grow s _ [n] rfl

theorem Same.upd (s : St) (i : Nat) (f : ENode → ENode) (h : ∀ n, (f n).kind = n.kind ∧ (f n).name = n.name ∧ (f n).ns = n.ns) : Same s (s.upd i f) := by
  refine ⟨by rw [len_upd]; exact Nat.le_refl _, fun j _ => ?_⟩
  rw [n_upd]
  split
  · next hx => rw [← hx.1]; exact h _
  · exact ⟨rfl, rfl, rfl⟩

theorem Same.two (s : St) (i j : Nat) (f g : ENode → ENode) (h : ∀ n, (f n).kind = n.kind ∧ (f n).name = n.name ∧ (f n).ns = n.ns)
    (k : ∀ n, (g n).kind = n.kind ∧ (g n).name = n.name ∧ (g n).ns = n.ns) : Same s ((s.upd i f).upd j g) := (Same.upd s i f h).trans (Same.upd _ j g k)

theorem Same.link (s : St) (p pos c : Nat) : Same s (s.link p pos c) :=
  Same.two s p c _ _ (fun _ => ⟨rfl, rfl, rfl⟩) fun _ => ⟨rfl, rfl, rfl⟩

theorem Same.linkLast (s : St) (p c : Nat) : Same s (s.linkLast p c) := by rw [linkLast_eq]; exact Same.link _ _ _ _

theorem Same.detach (s : St) (c : Nat) : Same s (s.detach c) := by
  unfold St.detach
  split
  · exact .refl s
  · split
    · exact Same.two s _ _ _ _ (fun _ => ⟨rfl, rfl, rfl⟩) fun _ => ⟨rfl, rfl, rfl⟩
    · exact .refl s

theorem Same.append (s : St) (p c : Nat) : Same s (s.append p c) := by
  unfold St.append
  split
  · split
    · exact Same.upd s _ _ fun _ => ⟨rfl, rfl, rfl⟩
    · exact Same.linkLast _ _ _
  · exact Same.linkLast _ _ _

theorem Same.foldl {f : St → Nat → St} (h : ∀ s c, Same s (f s c)) (l : List Nat) : ∀ s, Same s (l.foldl f s) := by
  induction l with
  | nil => exact fun s => .refl s
  | cons x l ih => exact fun s => (h s x).trans (ih _)

theorem Same.moveChildren (s : St) (a b : Nat) : Same s (s.moveChildren a b) :=
  (Same.upd s a (fun n => { n with children := [] }) fun _ => ⟨rfl, rfl, rfl⟩).trans (Same.foldl (f := fun s c => s.appendMoved b c) (fun s c => Same.linkLast s _ c) _ _)

theorem Same.clearBody (s : St) : Same s s.clearBody :=
  (Same.foldl (f := fun s c => s.upd c fun n => { n with parent := none }) (fun s c => Same.upd s c _ fun _ => ⟨rfl, rfl, rfl⟩) _ _).trans
    (Same.upd _ _ _ fun _ => ⟨rfl, rfl, rfl⟩)

theorem Step.same {C : Cfg} {s t : St} (h : Step C s t) : Same s t := by
  cases h with
  | ctl h => exact Same.of_heap (congrArg Prod.fst h)
  | stack l h => exact Same.of_heap rfl
  | fmt l h => exact Same.of_heap rfl
  | entry e h => exact Same.of_heap rfl
  | garbage n h => exact Same.add s n
  | data i f h => exact Same.upd s i _ fun _ => ⟨rfl, rfl, rfl⟩
  | leaf n p pos h => exact (Same.add s n).trans (Same.link _ _ _ _)
  | elem n l p pos u d h =>
    exact (Same.grow s { s with heap := s.heap ++ n :: l } _ rfl).trans ((Same.link _ p pos s.heap.length).trans (Same.of_heap rfl))
  | clone e u h => exact (Same.add s _).trans (Same.of_heap rfl)
  | poNew _ => exact (Same.add s _).trans (Same.of_heap rfl)
  | move c p pos h => exact (Same.detach s c).trans (Same.link _ _ _ _)
  | wrap e u b h => 
    refine Same.trans ?_ (Same.linkLast _ _ _)
    refine Same.trans ?_ (Same.moveChildren _ _ _)
    exact Same.trans (Same.add s _) (Same.of_heap rfl)
  | shrink p l h => exact Same.upd s p _ fun _ => ⟨rfl, rfl, rfl⟩
  | clearBody => exact Same.clearBody s
  | dropBody => exact Same.two s _ _ _ _ (fun _ => ⟨rfl, rfl, rfl⟩) fun _ => ⟨rfl, rfl, rfl⟩
  | closePo i node parent h => exact (Same.foldl (f := fun s c => s.append parent c) (fun s c => Same.append s _ c) _ _).trans (Same.of_heap rfl)
  | attrs i as h => exact Same.upd s i _ fun _ => ⟨rfl, rfl, rfl⟩

theorem Chain.same {C : Cfg} {s t : St} (h : Chain C s t) : Same s t := by
  induction h with
  | refl => exact .refl s
  | tail _ st ih => exact ih.trans st.same

theorem Steps.same {C : Cfg} {s t : St} (h : Steps C s t) : Same s t := h.chain.same

theorem Step.fixed {C : Cfg} {s t : St} (h : Step C s t) : t.fixed = s.fixed := by
  cases h with
  | ctl e =>
    simp only [St.core, Prod.mk.injEq] at e
    obtain ⟨h1, h2, h3, h4, h5, h6, _⟩ := e
    unfold St.fixed
    rw [h2, h3, h4, h5, h6]
  | move c p pos _ _ => exact detach_fixed s c
  | wrap e u b _ _ _ _ => exact foldl_frame (f := fun s c => s.appendMoved _ c) St.fixed (fun _ _ => rfl) _ _
  | clearBody => exact foldl_frame (f := fun s c => s.upd c fun n => { n with parent := none }) St.fixed (fun _ _ => rfl) _ _
  | closePo i node parent _ _ => exact foldl_frame (f := fun s c => s.append parent c) St.fixed (fun s c => append_fixed s parent c) _ _
  | _ => rfl

theorem Chain.fixed {C : Cfg} {s t : St} (h : Chain C s t) : t.fixed = s.fixed := by
  induction h with
  | refl => rfl
  | tail _ st ih => exact st.fixed.trans ih

theorem Steps.fixed {C : Cfg} {s t : St} (h : Steps C s t) : t.fixed = s.fixed := h.chain.fixed

theorem Steps.notFixed {C : Cfg} {s t : St} (h : Steps C s t) {i : Nat} (k : ¬ Fixed s i) : ¬ Fixed t i := fun x => k ((fixed_of h.fixed i).1 x)


/-- What is known of a node that was inserted for a start tag. -/
def NodeOk (name : Str) (r : Nat) (s : St) : Prop :=
  r < s.heap.length ∧ (s.n r).kind ≠ .text ∧ (s.n r).ns ≠ poNs ∧ ((s.n r).ns = some c%"html" → (s.n r).name = name) ∧ (s.n r).ns ≠ none

theorem NodeOk.same {name : Str} {r : Nat} {s t : St} (h : NodeOk name r s) (k : Same s t) : NodeOk name r t := by
  have e := k.2 r h.1
  refine ⟨Nat.lt_of_lt_of_le h.1 k.1, ?_, ?_, ?_, ?_⟩
  · rw [e.1]; exact h.2.1
  · rw [e.2.2]; exact h.2.2.1
  · rw [e.2.2, e.2.1]; exact h.2.2.2.1
  · rw [e.2.2]; exact h.2.2.2.2

/-- A method made of primitive changes whose answer is a node that has a property and that is not fixed. -/
def DoesR (C : Cfg) (P : Nat → St → Prop) (m : EM Nat) : Prop := ∀ s, Steps C s (m C s).2 ∧ P (m C s).1 (m C s).2 ∧ (Tidy s → ¬ Fixed (m C s).2 (m C s).1)

section
variable {C : Cfg}

/-! ### The plan -/

theorem Ok.action [h : Ok C] (hr : C.plan.rawMode = false) {name : Str} {a : TagAction} (ha : C.plan.action name = some a) :
    a.allowed = C.plan.allowedTags.contains name ∧ a.name = name := by
  rcases h.out with ⟨sc, hp⟩ | ⟨p, sc, hp, _⟩
  · rw [hp] at hr; exact absurd hr (by simp [rawPlan])
  · rw [hp] at ha ⊢
    simp only [compilePlan, compileAction] at ha ⊢
    split at ha
    · exact absurd ha (by simp)
    · simp only [Option.some.injEq] at ha
      rw [← ha]
      exact ⟨rfl, rfl⟩

theorem Ok.known [h : Ok C] (hr : C.plan.rawMode = false) {name : Str} (ha : name ∈ C.plan.allowedTags) : ∃ a, C.plan.action name = some a := by
  rcases h.out with ⟨sc, hp⟩ | ⟨p, sc, hp, _⟩
  · rw [hp] at hr; exact absurd hr (by simp [rawPlan])
  · rw [hp] at ha ⊢
    simp only [compilePlan, compileAction] at ha ⊢
    rw [if_neg]
    · exact ⟨_, rfl⟩
    · simp [knownTags, ha]

theorem sanitizeAttrs_ok [Ok C] (name : Str) (attrs : Attrs) (hr : C.plan.rawMode = false) : AttrsOk C name (sanitizeAttrs C (C.plan.action name) attrs) := by
    refine .inr ⟨hr, ?_⟩
    by_cases ha : name ∈ C.plan.allowedTags
    · right
      obtain ⟨a, h⟩ := Ok.known hr ha
      refine ⟨a, h, ?_⟩
      have := (Ok.action hr h).1
      rw [h]
      unfold sanitizeAttrs
      simp only
      have hall : a.allowed = true := by rw [this]; simpa using ha
      rw [hall]
      intro kv hkv
      simp only [Bool.not_true, Bool.false_eq_true, if_false, List.mem_filterMap] at hkv
      obtain ⟨p, _, hp⟩ := hkv
      split at hp
      · next hc =>
        rw [Option.map_eq_some_iff] at hp
        obtain ⟨v, hv, hk⟩ := hp
        rw [← hk]
        exact ⟨by simpa using hc, _, v, hv, rfl⟩
      · exact absurd hp (by simp)
    · exact .inl ha

/-- In a raw parse, attributes that are read from start tags with this name or those of an entry for a formatting element with this name. -/
def GivenIn (C : Cfg) (f : List (Option FEntry)) (name : Str) (attrs : Attrs) : Prop :=
  C.plan.rawMode = true → (∀ kv ∈ attrs, AttrFrom C name kv) ∨ ∃ e, some e ∈ f ∧ e.name = name ∧ e.attrs = attrs

theorem Given.ent {name : Str} {attrs : Attrs} (h : Given C name attrs) (f : List (Option FEntry)) : GivenIn C f name attrs := fun hr => .inl (h.out hr)

theorem startAttrs_ok [Ok C] (name : Str) (attrs : Attrs) (f : List (Option FEntry)) (hg : GivenIn C f name attrs) : NewAttrs C f name (startAttrs C name c%"html" attrs) := by
  cases hr : C.plan.rawMode with
  | true =>
    have : startAttrs C name c%"html" attrs = attrs := by simp [startAttrs, hr]
    rw [this]
    exact (hg hr).imp (fun h => .inl ⟨hr, h⟩) id
  | false =>
    unfold startAttrs
    rw [hr]
    have h1 : (c%"html" = c%"svg") = False := by simp
    have h2 : (c%"html" = c%"math") = False := by simp
    simp only [h1, h2, decide_false, Bool.or_false, Bool.false_eq_true, if_false, Bool.not_false, Bool.true_and, decide_true, if_true]
    exact .inl (sanitizeAttrs_ok name attrs hr)

/-! ### Inserting -/

theorem nsForStart_ne (name : Str) (attrs : Attrs) (s : St) : (nsForStart name attrs C s).1 ≠ c%"justhtml-parser-only" := by
  have h0 : nsOfStart name ≠ c%"justhtml-parser-only" := by
    unfold nsOfStart
    split
    · simp
    · split <;> simp
  unfold nsForStart iteQ
  by_cases ho : (!openHtml (s.n s.top).ns) = true
  · rw [if_pos ho]
    by_cases h2 : (htmlPoint C.E.U (s.n s.top) || (mathPoint (s.n s.top) && name ≠ c%"mglyph" && name ≠ c%"malignmark")) = true
    · rw [if_pos h2]; exact h0
    · rw [if_neg h2]
      by_cases h3 : ((s.n s.top).ns = some c%"math" && (s.n s.top).name = c%"annotation-xml" && name = c%"svg") = true
      · rw [if_pos h3]; show c%"svg" ≠ _; simp
      · rw [if_neg h3]
        by_cases h4 : (!breakoutStart C.E.U name attrs) = true
        · rw [if_pos h4]
          show (s.n s.top).ns.getD c%"html" ≠ _
          cases hn : (s.n s.top).ns with
          | none => simp
          | some x =>
            intro hx
            rw [hn] at ho
            simp only [Option.getD_some] at hx
            subst hx
            exact absurd ho (by decide)
        · rw [if_neg h4]; exact h0
  · rw [if_neg ho]; exact h0

instance (name : Str) (attrs : Attrs) : Does C (nsForStart name attrs) := by unfold nsForStart; does

theorem newElement_eq [Ok C] (name : Str) (attrs : Attrs) (ns : Str) (s : St) (hns : ns ≠ c%"justhtml-parser-only")
    (ha : ns = c%"html" → NewAttrs C s.fmt name attrs) :
    ∃ n l, NewEl C s.fmt s.heap.length n l ∧ n.name = name ∧ n.ns = some ns ∧
      newElement name attrs ns C s = (s.heap.length, { s with heap := s.heap ++ n :: l }) := by
  unfold newElement iteQ
  by_cases h : (name = c%"template" && ns = c%"html") = true
  · rw [if_pos h]
    simp only [Bool.and_eq_true, decide_eq_true_eq] at h
    obtain ⟨rfl, rfl⟩ := h
    exact ⟨_, _, .template attrs (ha rfl), rfl, rfl, rfl⟩
  · rw [if_neg h]
    exact ⟨_, _, .plain name attrs ns hns ha, rfl, rfl, rfl⟩

/-- Setting the flag. -/
theorem sel_eq (name : Str) (s : St) :
    (whQ (fun _ _ => decide (name = c%"selectedcontent")) (modS fun s => { s with hasSelected := true }) C s).2 =
      { s with hasSelected := s.hasSelected || decide (name = c%"selectedcontent") } := by
  unfold whQ
  by_cases h : name = c%"selectedcontent"
  · simp [h, modS]
  · simp [h]

theorem recordSafe_eq (name ns : Str) (parent node : Nat) (s : St) (hr : C.plan.rawMode = false) :
    ∃ u d, (u = true ∨ (ns = c%"html" ∧ name ∈ C.plan.allowedTags)) ∧ (d = true → u = true) ∧
      (recordSafe name ns parent node C s).2.core =
        ({ s with toUnwrap := s.toUnwrap ++ if u then [node] else [], toDrop := s.toDrop ++ if d then [node] else [] } : St).core := by
  unfold recordSafe iteQ
  by_cases h : (decide (ns ≠ c%"html")) = true
  · rw [if_pos h]
    simp only [bind_eq]
    unfold whQ
    split
    · exact ⟨true, true, .inl rfl, fun _ => rfl, rfl⟩
    · exact ⟨true, false, .inl rfl, fun h => absurd h (by simp), by simp [noteUnwrap, modS, St.core]⟩
  · rw [if_neg h]
    have h1 : ns = c%"html" := by simpa using h
    unfold whQ
    by_cases h2 : (!C.plan.allowedTags.contains name) = true
    · rw [if_pos h2]
      exact ⟨true, false, .inl rfl, fun h => absurd h (by simp), by simp [noteUnwrap, modS, St.core]⟩
    · rw [if_neg h2]
      exact ⟨false, false, .inr ⟨h1, by simpa using h2⟩, fun h => h, by simp [St.core]⟩

theorem link_frame (s : St) (p pos c : Nat) (b : Bool) :
    ({ s with hasSelected := b } : St).link p pos c = { s.link p pos c with hasSelected := b } := rfl

theorem put_step {s : St} (n : ENode) (l : List ENode) (p pos : Nat) (u d : Bool) (hn : NewEl C s.fmt s.heap.length n l) (hu : u = true ∨ Kept C n)
    (hd : d = true → u = true) (hs : Src C s n) : Step C s (put s n l p pos u d (n.name = c%"selectedcontent")) := Step.elem n l p pos u d hn hu hd hs

theorem put_node (s : St) {n : ENode} {l : List ENode} (p pos : Nat) (u d sel : Bool) (hn : NewEl C s.fmt s.heap.length n l) :
    NodeOk n.name s.heap.length (put s n l p pos u d sel) := by
  have h0 : NodeOk n.name s.heap.length { s with heap := s.heap ++ n :: l } := by
    refine ⟨by simp, ?_, ?_, ?_, ?_⟩
    · rw [n_heap_append]; exact hn.kind
    · rw [n_heap_append]
      cases hn with
      | plain _ _ _ h => simpa [elementNode, poNs] using h
      | template _ _ => simp [poNs]
    · rw [n_heap_append]; intro _; rfl
    · rw [n_heap_append]
      cases hn with
      | plain _ _ _ h => simp [elementNode]
      | template _ _ => simp
  exact h0.same ((Same.link _ p pos s.heap.length).trans (Same.of_heap rfl))

theorem core_n {s t : St} (h : t.core = s.core) (i : Nat) : t.n i = s.n i := by
  have : t.heap = s.heap := congrArg Prod.fst h
  unfold St.n; rw [this]

theorem NodeOk.core {name : Str} {r : Nat} {s t : St} (h : NodeOk name r s) (k : t.core = s.core) : NodeOk name r t :=
  h.same (Same.of_heap (congrArg Prod.fst k))

theorem pure_eq {α : Type} (a : α) (C : Cfg) (s : St) : (pure a : EM α) C s = (a, s) := rfl

theorem whQ_steps {c : Cfg → St → Bool} {m : EM Unit} {s : St} (h : c C s = true → Steps C s (m C s).2) : Steps C s (whQ c m C s).2 := by
  unfold whQ
  by_cases hc : c C s = true
  · rw [if_pos hc]; exact h hc
  · rw [if_neg hc]; exact .refl

theorem whQ_cases {c : Cfg → St → Bool} {m : EM Unit} {s : St} {P : St → Prop} (h : P (m C s).2) (k : P s) : P (whQ c m C s).2 := by
  unfold whQ
  by_cases hc : c C s = true
  · rw [if_pos hc]; exact h
  · rw [if_neg hc]; exact k

theorem iteQ_steps {α : Type} {c : Cfg → St → Bool} {m₁ m₂ : EM α} {s : St} (h : c C s = true → Steps C s (m₁ C s).2)
    (k : c C s = false → Steps C s (m₂ C s).2) : Steps C s (iteQ c m₁ m₂ C s).2 := by
  unfold iteQ
  by_cases hc : c C s = true
  · rw [if_pos hc]; exact h hc
  · rw [if_neg hc]; exact k (by simpa using hc)

theorem bind_steps {α β : Type} {m : EM α} {f : α → EM β} {s : St} (h : Steps C s (m C s).2)
    (k : Steps C (m C s).2 (f (m C s).1 C (m C s).2).2) : Steps C s ((m >>= f) C s).2 := h.trans k

theorem does_steps {α : Type} {m : EM α} (h : Does C m) (s : St) : Steps C s (m C s).2 := h.out s

theorem placeEl_does [Ok C] (name : Str) (attrs : Attrs) (ns : Str) (parent : Nat) (hns : ns ≠ c%"justhtml-parser-only")
    (s : St) (ha : ns = c%"html" → NewAttrs C s.fmt name attrs) (hsrc : ∀ n : ENode, n.name = name → n.ns = some ns → Src C s n) :
    Steps C s (placeEl name attrs ns parent C s).2 ∧ (fun r (t : St) => NodeOk name r t ∧ (t.n r).ns = some ns ∧ (Tidy s → Fresh t r)) (placeEl name attrs ns parent C s).1
      (placeEl name attrs ns parent C s).2 := by
  obtain ⟨n, l, hn, hname, hnsn, he⟩ := newElement_eq name attrs ns s hns ha
  unfold placeEl
  simp only [bind_eq, pure_eq, he]
  rw [sel_eq]
  generalize hf : (q _ C _ : Option (Nat × Nat) × St) = ff
  have hf2 : ff.2 = ({ s with heap := s.heap ++ n :: l, hasSelected := s.hasSelected || decide (name = c%"selectedcontent") } : St) := by rw [← hf]; rfl
  rw [hf2]
  generalize ff.1 = foster
  have hk : (({ s with heap := s.heap ++ n :: l, hasSelected := s.hasSelected || decide (name = c%"selectedcontent") } : St).n s.heap.length).kind ≠ .text := by
    have : ({ s with heap := s.heap ++ n :: l, hasSelected := s.hasSelected || decide (name = c%"selectedcontent") } : St).n s.heap.length = n :=
      n_heap_append s n l
    rw [this]; exact hn.kind
  obtain ⟨p, pos, hlt, hp⟩ := place_eq (C := C) _ parent foster s.heap.length hk
  rw [hp]
  have hlt : p < s.heap.length ∨ s.heap.length + l.length + 1 ≤ p := hlt.imp id fun k => by simp at k; omega
  have main : ∃ u d, (u = true ∨ Kept C n) ∧ (d = true → u = true) ∧
      (whQ (fun C _ => !C.plan.rawMode) (recordSafe name ns parent s.heap.length) C
        (({ s with heap := s.heap ++ n :: l, hasSelected := s.hasSelected || decide (name = c%"selectedcontent") } : St).link p pos s.heap.length)).2.core =
        (put s n l p pos u d (decide (n.name = c%"selectedcontent"))).core := by
    unfold whQ
    by_cases hr : C.plan.rawMode = true
    · rw [if_neg (by simp [hr])]
      refine ⟨false, false, .inr (.inl hr), fun h => h, ?_⟩
      rw [hname]
      simp [put, St.core, St.link, St.upd, St.n]
    · rw [if_pos (by simpa using hr)]
      obtain ⟨u, d, h1, h2, h3⟩ := recordSafe_eq (C := C) name ns parent s.heap.length
        (({ s with heap := s.heap ++ n :: l, hasSelected := s.hasSelected || decide (name = c%"selectedcontent") } : St).link p pos s.heap.length)
        (by simpa using hr)
      refine ⟨u, d, ?_, h2, ?_⟩
      · rcases h1 with h | ⟨h, h'⟩
        · exact .inl h
        · exact .inr (.inr ⟨by rw [hnsn, h], by rw [hname]; exact h'⟩)
      · rw [h3, hname]
        rfl
  obtain ⟨u, d, hu, hd, hc⟩ := main
  have hok := put_node s p pos u d (decide (n.name = c%"selectedcontent")) hn
  rw [hname] at hok
  have hst : Steps C s (put s n l p pos u d (decide (n.name = c%"selectedcontent"))) := .one (put_step n l p pos u d hn hu hd (hsrc n hname hnsn))
    fun h => (put_tidy h hn p pos u d _ hlt).1
  have hc' := hc
  rw [hname] at hc'
  refine ⟨hst.trans (.ctl hc), hok.core hc', ?_, fun h => (put_tidy h hn p pos u d (decide (n.name = c%"selectedcontent")) hlt).2.core ?_⟩
  rotate_left
  · simp only [St.core, Prod.mk.injEq] at hc
    obtain ⟨c1, c2, c3, c4, c5, c6, c7, _⟩ := hc
    simp only [St.fixed, Prod.mk.injEq]
    exact ⟨c1, ⟨c2, c3, c4, c5, c6⟩, c7⟩
  show ((whQ _ _ C _).2.n s.heap.length).ns = some ns
  rw [core_n hc, ← hnsn]
  have h0 : ({ s with heap := s.heap ++ n :: l } : St).n s.heap.length = n := n_heap_append s n l
  have := ((Same.link ({ s with heap := s.heap ++ n :: l } : St) p pos s.heap.length).2 s.heap.length (by simp)).2.2
  rw [h0] at this
  exact this

/-- Pushing the node that was just inserted. -/
theorem push_steps {name : Str} {r : Nat} {s t : St} (hs : Steps C s t) (h : NodeOk name r t) (hf : Tidy s → Fresh t r) : Steps C s (push r C t).2 :=
  ⟨hs.chain.trans (.one (push_step h.1 h.2.2.1)), fun k => (hs.tidy k).pushFresh (hf k)⟩

theorem openEl_steps {name' : Str} (name ns : Str) (sc : Bool) {node : Nat} {s t : St} (hs : Steps C s t) (h : NodeOk name' node t) (hf : Tidy s → Fresh t node) :
    Steps C s (openEl name ns sc node C t).2 ∧ Same t (openEl name ns sc node C t).2 ∧ (openEl name ns sc node C t).2.fixed = t.fixed := by
  have h1 : Does C (do
      whQ (fun _ _ => name = c%"template" && ns = c%"html") enterTemplate
      whQ (fun _ _ => ns = c%"html" && (tableCells.contains name || markerTags.contains name)) pushMarker) := by
    unfold enterTemplate; does
  unfold openEl
  refine whQ_cases (P := fun u => Steps C s u ∧ Same t u ∧ u.fixed = t.fixed) ?_ ⟨hs, .refl _, rfl⟩
  have h2 := does_steps h1 (push node C t).2
  exact ⟨(push_steps hs h hf).trans h2, (Same.of_heap (t := (push node C t).2) rfl).trans h2.same, h2.fixed⟩

theorem nsForStart_src (name : Str) (attrs : Attrs) (s : St) : (nsForStart name attrs C s).2.fmt = s.fmt ∧ (nsForStart name attrs C s).2.heap = s.heap ∧
    ((nsForStart name attrs C s).1 = nsOfStart name ∨ ∃ i, i < s.heap.length ∧ (s.n i).ns = some (nsForStart name attrs C s).1) := by
  unfold nsForStart iteQ
  by_cases ho : (!openHtml (s.n s.top).ns) = true
  · rw [if_pos ho]
    by_cases h2 : (htmlPoint C.E.U (s.n s.top) || (mathPoint (s.n s.top) && name ≠ c%"mglyph" && name ≠ c%"malignmark")) = true
    · rw [if_pos h2]; exact ⟨rfl, rfl, .inl rfl⟩
    · rw [if_neg h2]
      by_cases h3 : ((s.n s.top).ns = some c%"math" && (s.n s.top).name = c%"annotation-xml" && name = c%"svg") = true
      · rw [if_pos h3]
        simp only [Bool.and_eq_true, decide_eq_true_eq] at h3
        rw [h3.2]
        exact ⟨rfl, rfl, .inl rfl⟩
      · rw [if_neg h3]
        by_cases h4 : (!breakoutStart C.E.U name attrs) = true
        · rw [if_pos h4]
          refine ⟨rfl, rfl, .inr ⟨s.top, ?_, ?_⟩⟩
          · by_cases hl : s.top < s.heap.length
            · exact hl
            · exfalso
              have : s.n s.top = {} := by
                unfold St.n
                rw [List.getD_eq_getElem?_getD, List.getElem?_eq_none (by omega)]; rfl
              rw [this] at ho
              exact absurd ho (by decide)
          · show (s.n s.top).ns = some ((s.n s.top).ns.getD c%"html")
            cases hn : (s.n s.top).ns with
            | none => rw [hn] at ho; exact absurd ho (by decide)
            | some x => rfl
        · rw [if_neg h4]; exact ⟨rfl, rfl, .inl rfl⟩
  · rw [if_neg ho]; exact ⟨rfl, rfl, .inl rfl⟩

theorem insertEl_steps [Ok C] (name : Str) (attrs : Attrs) (sc : Bool) (parent : Nat) (s : St) (hname : NameIn C s name) (hg : GivenIn C s.fmt name attrs) :
    Steps C s (insertEl name attrs sc parent C s).2 ∧ NodeOk name (insertEl name attrs sc parent C s).1 (insertEl name attrs sc parent C s).2 ∧
      (Tidy s → ¬ Fixed (insertEl name attrs sc parent C s).2 (insertEl name attrs sc parent C s).1) := by
  unfold insertEl
  simp only [bind_eq, pure_eq]
  have h1 := does_steps (inferInstance : Does C (nsForStart name attrs)) s
  have hne := nsForStart_ne (C := C) name attrs s
  have hsr := nsForStart_src (C := C) name attrs s
  generalize nsForStart name attrs C s = r at h1 hne hsr
  obtain ⟨ns, s1⟩ := r
  simp only at h1 hne hsr ⊢
  generalize hp : (q (fun _ s => if !isHtmlNs (s.n parent).ns && !s.stack.contains parent then s.curParent else parent) C
    (q (fun C _ => startAttrs C (elName ns name) ns attrs) C s1).2) = pp
  have hp2 : pp.2 = s1 := by rw [← hp]; rfl
  rw [hp2]
  have ha : ns = c%"html" → NewAttrs C s1.fmt (elName ns name) ((q (fun C _ => startAttrs C (elName ns name) ns attrs) C s1).1) := by
    intro h; subst h; rw [hsr.1]; exact startAttrs_ok name attrs s.fmt hg
  obtain ⟨h2, h3, h4, hfr⟩ := placeEl_does (C := C) (elName ns name) ((q (fun C _ => startAttrs C (elName ns name) ns attrs) C s1).1) ns pp.1 hne s1 ha
    (fun n h1 h2 => ⟨name, ns, by unfold NameIn; rw [hsr.1]; exact hname, h1, h2, by
      rcases hsr.2.2 with h | ⟨i, h, h'⟩
      · exact .inl h
      · exact .inr (.inr ⟨i, by rw [hsr.2.1]; exact h, by unfold St.n at h' ⊢; rw [hsr.2.1]; exact h'⟩)⟩)
  generalize placeEl (elName ns name) ((q (fun C _ => startAttrs C (elName ns name) ns attrs) C s1).1) ns pp.1 C s1 = r2 at h2 h3 h4 hfr
  obtain ⟨h5, h7, h8⟩ := openEl_steps (C := C) (elName ns name) ns sc h2 h3 hfr
  refine ⟨h1.trans h5, ?_, fun k => fun x => (hfr (h1.tidy k)).notFixed ((fixed_of h8 _).1 x)⟩
  have h6 : NodeOk name r2.1 r2.2 := by
    refine ⟨h3.1, h3.2.1, h3.2.2.1, fun h => ?_, h3.2.2.2.2⟩
    rw [h3.2.2.2.1 h]
    rw [h4] at h
    have : ns = c%"html" := by simpa using h
    subst this
    unfold elName
    rw [if_neg (by simp)]
  exact h6.same h7

theorem insertEl_does [Ok C] (name : Str) [h : Named C name] (attrs : Attrs) [hg : Given C name attrs] (sc : Bool) (parent : Nat) : DoesR C (NodeOk name) (insertEl name attrs sc parent) :=
  fun s => insertEl_steps name attrs sc parent s (.inl h) (hg.ent _)

instance [Ok C] (name : Str) [Named C name] (attrs : Attrs) [Given C name attrs] (sc : Bool) (parent : Nat) : Does C (insertEl name attrs sc parent) :=
  ⟨fun s => (insertEl_does name attrs sc parent s).1⟩

theorem insertHere_does [Ok C] (name : Str) [Named C name] (attrs : Attrs) [Given C name attrs] (sc : Bool) : DoesR C (NodeOk name) (insertHere name attrs sc) := fun s =>
  insertEl_does name attrs sc s.curParent s

instance [Ok C] (name : Str) [Named C name] (attrs : Attrs) [Given C name attrs] (sc : Bool) : Does C (insertHere name attrs sc) := ⟨fun s => (insertHere_does name attrs sc s).1⟩
instance [Ok C] (name : Str) [Named C name] (attrs : Attrs) [Given C name attrs] (sc : Bool) : Does C (insertHere' name attrs sc) := by unfold insertHere'; does

/-! ### The compiled insertion -/

/-- Placing an element and recording it or not. -/
theorem placeCompiled_eq (name : Str) (attrs : Attrs) (parent : Nat) (s : St) (ha : AttrsOk C name attrs) :
    ∃ n p pos, (p < s.heap.length ∨ s.heap.length + 1 ≤ p) ∧ NewEl C s.fmt s.heap.length n [] ∧ n.name = name ∧ n.ns = some c%"html" ∧
      placeCompiled name attrs parent C s = (s.heap.length, put s n [] p pos false false (decide (name = c%"selectedcontent"))) := by
  unfold placeCompiled
  simp only [bind_eq, pure_eq]
  have he : alloc (elementNode name attrs (some c%"html")) C s = (s.heap.length, { s with heap := s.heap ++ [elementNode name attrs (some c%"html")] }) := rfl
  rw [he]
  simp only
  rw [sel_eq]
  generalize hf : (q _ C _ : Option (Nat × Nat) × St) = ff
  have hf2 : ff.2 = ({ s with heap := s.heap ++ [elementNode name attrs (some c%"html")], hasSelected := s.hasSelected || decide (name = c%"selectedcontent") } : St) := by rw [← hf]; rfl
  rw [hf2]
  have hk : (({ s with heap := s.heap ++ [elementNode name attrs (some c%"html")], hasSelected := s.hasSelected || decide (name = c%"selectedcontent") } : St).n s.heap.length).kind ≠ .text := by
    have : ({ s with heap := s.heap ++ [elementNode name attrs (some c%"html")], hasSelected := s.hasSelected || decide (name = c%"selectedcontent") } : St).n s.heap.length = elementNode name attrs (some c%"html") :=
      n_heap_append s _ []
    rw [this]; simp [elementNode]
  obtain ⟨p, pos, hlt, hp⟩ := place_eq (C := C) _ parent ff.1 s.heap.length hk
  rw [hp]
  refine ⟨_, p, pos, by simpa using hlt, .plain name attrs c%"html" (by simp) (fun _ => .inl ha), rfl, rfl, ?_⟩
  simp [put, St.link, St.upd, St.n]

theorem put_unwrap (s : St) (n : ENode) (l : List ENode) (p pos : Nat) (sel : Bool) :
    ({ put s n l p pos false false sel with toUnwrap := s.toUnwrap ++ [s.heap.length] } : St) = put s n l p pos true false sel := rfl

theorem Named.src (name : Str) [h : Named C name] (s : St) {n : ENode} (h1 : n.name = name) (h2 : n.ns = some c%"html") : Src C s n :=
  ⟨name, c%"html", .inl h, by rw [h1]; rfl, h2, .inr (.inl rfl)⟩

theorem pushUnlessVoid (name : Str) {name' : Str} {r : Nat} {s t : St} (hs : Steps C s t) (h : NodeOk name' r t) (hf : Tidy s → Fresh t r) :
    Steps C s (whQ (fun _ _ => !htmlVoids.contains name) (push r) C t).2 ∧ Same t (whQ (fun _ _ => !htmlVoids.contains name) (push r) C t).2 ∧
      (whQ (fun _ _ => !htmlVoids.contains name) (push r) C t).2.fixed = t.fixed := by
  unfold whQ
  split
  · exact ⟨push_steps hs h hf, .of_heap rfl, rfl⟩
  · exact ⟨hs, .refl _, rfl⟩

theorem insertCompiled_does (name : Str) [Named C name] (attrs : Attrs) (parent : Nat) (ha : AttrsOk C name attrs)
    (hall : C.plan.rawMode = true ∨ name ∈ C.plan.allowedTags) : DoesR C (NodeOk name) (insertCompiled name attrs parent) := by
  intro s
  obtain ⟨n, p, pos, hlt, hn, hname, hns, he⟩ := placeCompiled_eq name attrs parent s ha
  unfold insertCompiled
  simp only [bind_eq, pure_eq, he]
  have hok := put_node s p pos false false (decide (name = c%"selectedcontent")) hn
  have hs := put_step (C := C) (s := s) n [] p pos false false hn (.inr (by
    rcases hall with h | h
    · exact .inl h
    · exact .inr ⟨hns, by rw [hname]; exact h⟩)) (fun h => h) (Named.src name s hname hns)
  rw [hname] at hok hs
  have ht := fun h => put_tidy (C := C) (s := s) h hn p pos false false (decide (name = c%"selectedcontent")) hlt
  obtain ⟨h2, h3, h4⟩ := pushUnlessVoid name (Steps.one hs fun h => (ht h).1) hok fun h => (ht h).2
  exact ⟨h2, hok.same h3, fun h x => (ht h).2.notFixed ((fixed_of h4 _).1 x)⟩

theorem insertUnwrap_does (name : Str) [Named C name] (attrs : Attrs) (parent : Nat) (ha : AttrsOk C name attrs) :
    DoesR C (NodeOk name) (do
      let node ← insertCompiled name attrs parent
      noteUnwrap node
      pure node) := by
  intro s
  obtain ⟨n, p, pos, hlt, hn, hname, hns, he⟩ := placeCompiled_eq name attrs parent s ha
  unfold insertCompiled
  simp only [bind_eq, pure_eq, he]
  have hok := put_node s p pos true false (decide (name = c%"selectedcontent")) hn
  have hs := put_step (C := C) (s := s) n [] p pos true false hn (.inl rfl) (fun _ => rfl) (Named.src name s hname hns)
  rw [hname] at hok hs
  have ht := fun h => put_tidy (C := C) (s := s) h hn p pos true false (decide (name = c%"selectedcontent")) hlt
  obtain ⟨h2, h3, h4⟩ := pushUnlessVoid name (Steps.one hs fun h => (ht h).1) hok fun h => (ht h).2
  have he : (noteUnwrap s.heap.length C
      (whQ (fun _ _ => !htmlVoids.contains name) (push s.heap.length) C (put s n [] p pos false false (decide (name = c%"selectedcontent")))).2).2 =
      (whQ (fun _ _ => !htmlVoids.contains name) (push s.heap.length) C (put s n [] p pos true false (decide (name = c%"selectedcontent")))).2 := by
    unfold whQ
    split
    · simp [noteUnwrap, push, modS, put, St.link, St.upd, St.n]
    · simp [noteUnwrap, modS, put, St.link, St.upd, St.n]
  rw [he]
  exact ⟨h2, hok.same h3, fun h x => (ht h).2.notFixed ((fixed_of h4 _).1 x)⟩

theorem attrsOk_nil [Ok C] (name : Str) : AttrsOk C name [] := by
  cases hr : C.plan.rawMode with
  | true => exact .inl ⟨hr, fun _ h => absurd h (by simp)⟩
  | false =>
    by_cases ha : name ∈ C.plan.allowedTags
    · obtain ⟨a, h⟩ := Ok.known hr ha
      exact .inr ⟨hr, .inr ⟨a, h, fun _ h => absurd h (by simp)⟩⟩
    · exact .inr ⟨hr, .inl ha⟩

/-- Inserting and, if the name is not allowed, recording. -/
theorem insertNote_does (name : Str) [Named C name] (attrs : Attrs) (parent : Nat) (ha : AttrsOk C name attrs) :
    DoesR C (NodeOk name) (do
      let node ← insertCompiled name attrs parent
      whQ (fun C _ => !C.plan.allowedTags.contains name) (noteUnwrap node)
      pure node) := by
  intro s
  by_cases h : name ∈ C.plan.allowedTags
  · have := insertCompiled_does name attrs parent ha (.inr h) s
    have hc : (!C.plan.allowedTags.contains name) = false := by simpa using h
    simp only [bind_eq, pure_eq, whQ, hc, Bool.false_eq_true, if_false]
    exact this
  · have := insertUnwrap_does name attrs parent ha s
    have hc : (!C.plan.allowedTags.contains name) = true := by simpa using h
    simp only [bind_eq, pure_eq, whQ, hc, if_true] at this ⊢
    exact this

instance [Ok C] (name : Str) [Named C name] : Does C (insertSafe name []) := ⟨fun s =>
  (insertNote_does name [] s.curParent (attrsOk_nil name) s).1⟩

end

end JH.Eng
