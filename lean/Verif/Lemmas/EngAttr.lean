import Verif.Lemmas.EngNames

/-! The attributes of HTML elements. -/
namespace JH.Eng

section
variable {C : Cfg}

/-- An HTML namespace, or the one of elements that the parser drops. -/
def Native (ns : Option Str) : Prop := ∀ n, ns = some n → n ≠ c%"justhtml-parser-only" → n = c%"html"

theorem native_html : Native (some c%"html") := fun _ h _ => (Option.some.inj h).symm

/-- What is known of the attributes of a node. -/
def FullOk (C : Cfg) (x : (Kind × Str × Option Str) × Attrs) : Prop := x.1.2.2 ≠ none → Native x.1.2.2 → AttrsOk C x.1.2.1 x.2

theorem AttrsOk.append {name : Str} {a b l : Attrs} (ha : AttrsOk C name a) (hb : AttrsOk C name b) (h : ∀ x ∈ l, x ∈ a ∨ x ∈ b) : AttrsOk C name l := by
  rcases ha with ⟨hr, ha⟩ | ⟨hr, ha⟩
  · rcases hb with ⟨-, hb⟩ | ⟨hr', -⟩
    · exact .inl ⟨hr, fun kv hk => (h kv hk).elim (ha kv) (hb kv)⟩
    · rw [hr] at hr'; exact absurd hr' (by simp)
  · rcases hb with ⟨hr', -⟩ | ⟨-, hb⟩
    · rw [hr] at hr'; exact absurd hr' (by simp)
    · refine .inr ⟨hr, ?_⟩
      rcases ha with ha | ⟨t, h1, h2⟩
      · exact .inl ha
      · rcases hb with hb | ⟨t', h3, h4⟩
        · exact .inl hb
        · have : t' = t := by rw [h1] at h3; exact (Option.some.inj h3).symm
          subst this
          exact .inr ⟨t', h1, fun kv hk => (h kv hk).elim (h2 kv) (h4 kv)⟩

theorem merge_mem (as : Attrs) : ∀ (acc : Attrs) (x : Str × Option Str),
    x ∈ as.foldl (fun acc p => if acc.any (fun x => x.1 = p.1) then acc else acc ++ [p]) acc → x ∈ acc ∨ x ∈ as := by
  induction as with
  | nil => exact fun acc x h => .inl h
  | cons p as ih =>
    intro acc x h
    rw [List.foldl_cons] at h
    rcases ih _ x h with h | h
    · split at h
      · exact .inl h
      · rcases List.mem_append.1 h with h | h
        · exact .inl h
        · simp only [List.mem_singleton] at h; rw [h]; exact .inr (List.mem_cons_self ..)
    · exact .inr (List.mem_cons_of_mem _ h)

/-- New nodes come at the end with attributes in order, or the attributes of a node of the shell are added to. -/
theorem Step.fulls [Ok C] {s t : St} (h : Step C s t) (k : ∀ e, some e ∈ s.fmt → AttrsOk C e.name e.attrs) :
    (∃ l, t.fulls = s.fulls ++ l ∧ ∀ x ∈ l, FullOk C x) ∨
    ∃ i as, ((C.fragment = false ∧ ((s.html = some i ∧ AttrsOk C c%"html" as) ∨ (s.head = some i ∧ AttrsOk C c%"head" as) ∨ (s.body = i ∧ AttrsOk C c%"body" as))) ∨
        (C.plan.rawMode = true ∧ s.body = i ∧ (s.n i).kind = .element ∧ AttrsOk C c%"body" as)) ∧ t = s.upd i fun n => { n with attrs := as.foldl (fun acc p => if acc.any (fun x => x.1 = p.1) then acc else acc ++ [p]) n.attrs } := by
  have none : ∀ {u : St}, u.fulls = s.fulls → (∃ l, u.fulls = s.fulls ++ l ∧ ∀ x ∈ l, FullOk C x) := fun hu => ⟨[], by simp [hu], fun _ h => absurd h (by simp)⟩
  have one : ∀ {u : St} {n : ENode}, u.fulls = s.fulls ++ [n.full] → FullOk C n.full → (∃ l, u.fulls = s.fulls ++ l ∧ ∀ x ∈ l, FullOk C x) :=
    fun {_ n} hu hn => ⟨[n.full], hu, fun x hx => by simp at hx; rw [hx]; exact hn⟩
  have leaf : ∀ {n : ENode}, LeafOk C n → FullOk C n.full := fun {n} h e => absurd h.2.2.2.1 e
  have ent : ∀ e, some e ∈ s.fmt → FullOk C (elementNode e.name e.attrs (some c%"html")).full := fun e he _ _ => k e he
  cases h with
  | ctl h => exact .inl (none (fulls_of (congrArg Prod.fst h)))
  | stack l h => exact .inl (none (fulls_of rfl))
  | fmt l h => exact .inl (none (fulls_of rfl))
  | entry e h => exact .inl (none (fulls_of rfl))
  | garbage n h => exact .inl (one (fulls_add s n) (leaf h))
  | data i f h => exact .inl (none (fulls_upd _ _ _ fun _ => rfl))
  | leaf n p pos h => exact .inl (one ((fulls_link _ _ _ _).trans (fulls_add s n)) (leaf h))
  | elem n l p pos u d h _ _ hsrc =>
    refine .inl ⟨n.full :: l.map ENode.full, ?_, ?_⟩
    · refine (fulls_of rfl).trans ((fulls_link ({ s with heap := s.heap ++ n :: l } : St) p pos s.heap.length).trans ?_)
      simp [St.fulls]
    · cases h with
      | plain name attrs ns h1 h2 =>
        intro x hx
        have : x = (elementNode name attrs (some ns)).full := by simpa using hx
        rw [this]
        intro _ e
        rcases h2 (e ns rfl h1) with h | ⟨e', he, h3, h4⟩
        · exact h
        · exact h3 ▸ h4 ▸ k e' he
      | template attrs h =>
        intro x hx
        simp only [List.map_cons, List.map_nil, List.mem_cons, List.not_mem_nil, or_false] at hx
        rcases hx with rfl | rfl
        · intro _ _
          rcases h with h | ⟨e', he, h3, h4⟩
          · exact h
          · exact h3 ▸ h4 ▸ k e' he
        · exact fun e => absurd e (by simp [ENode.full, ENode.head])
  | clone e u h => exact .inl (one ((fulls_of rfl).trans (fulls_add s (elementNode e.name e.attrs (some c%"html")))) (ent e h))
  | poNew _ => exact .inl (one ((fulls_of rfl).trans (fulls_add s (elementNode c%"template" [] poNs))) fun _ _ => attrsOk_nil _)
  | move c p pos h => exact .inl (none ((fulls_link _ _ _ _).trans (fulls_detach _ _)))
  | wrap e u b h =>
    refine .inl (one (n := elementNode e.name e.attrs (some c%"html")) ?_ (ent e h))
    refine (fulls_linkLast _ _ _).trans ((fulls_moveChildren _ _ _).trans ?_)
    exact (fulls_of rfl).trans (fulls_add s _)
  | shrink p l h => exact .inl (none (fulls_upd _ _ _ fun _ => rfl))
  | clearBody => exact .inl (none (fulls_clearBody s))
  | dropBody => exact .inl (none (fulls_two _ _ _ _ _ (fun _ => rfl) fun _ => rfl))
  | closePo i node parent h =>
    exact .inl (none ((fulls_of rfl).trans (fulls_foldl (f := fun s c => s.append parent c) (fun s c => fulls_append s _ c) _ _)))
  | attrs i as h => exact .inr ⟨i, as, h, rfl⟩

/-- The nodes of the shell have their names. -/
def Shelled (s : St) : Prop :=
  (∀ i, s.html = some i → i < s.heap.length ∧ (s.n i).name = c%"html") ∧ (∀ i, s.head = some i → i < s.heap.length ∧ (s.n i).name = c%"head") ∧
    s.body < s.heap.length ∧ (s.n s.body).name = c%"body"

theorem head_get {s t : St} {l : List (Kind × Str × Option Str)} (h : t.heads = s.heads ++ l) {i : Nat} (hi : i < s.heap.length) :
    i < t.heap.length ∧ (t.n i).head = (s.n i).head := by
  have e1 : t.heads[i]? = s.heads[i]? := by rw [h, List.getElem?_append_left (by rw [St.heads, List.length_map]; exact hi)]
  have hlen : i < t.heap.length := by
    have := congrArg List.length h
    simp [St.heads] at this
    omega
  refine ⟨hlen, ?_⟩
  unfold St.heads at e1
  rw [List.getElem?_map, List.getElem?_map, List.getElem?_eq_getElem hi, List.getElem?_eq_getElem hlen] at e1
  unfold St.n
  rw [List.getD_eq_getElem?_getD, List.getD_eq_getElem?_getD, List.getElem?_eq_getElem hi, List.getElem?_eq_getElem hlen]
  simpa using e1

theorem Step.shelled {s t : St} (h : Step C s t) (k : Shelled s) : Shelled t := by
  obtain ⟨l, hl, _⟩ := h.heads
  have hf := h.fixed
  simp only [St.fixed, Prod.mk.injEq] at hf
  obtain ⟨-, h2, h3, h4, -⟩ := hf
  have key : ∀ i name, i < s.heap.length ∧ (s.n i).name = name → i < t.heap.length ∧ (t.n i).name = name := by
    intro i name hi
    obtain ⟨a, b⟩ := head_get hl hi.1
    exact ⟨a, (congrArg (fun x => x.2.1) b).trans hi.2⟩
  refine ⟨fun i hi => key i _ (k.1 i (h2 ▸ hi)), fun i hi => key i _ (k.2.1 i (h3 ▸ hi)), ?_⟩
  rw [h4]
  exact key _ _ k.2.2

/-- The node for the body, if it is an element, has its name. -/
def BodyNamed (s : St) : Prop := s.body < s.heap.length ∧ ((s.n s.body).kind = .element → (s.n s.body).name = c%"body")

theorem Step.bodyNamed {s t : St} (h : Step C s t) (k : BodyNamed s) : BodyNamed t := by
  obtain ⟨l, hl, _⟩ := h.heads
  have hf := h.fixed
  simp only [St.fixed, Prod.mk.injEq] at hf
  obtain ⟨-, -, -, h4, -⟩ := hf
  obtain ⟨a, b⟩ := head_get hl k.1
  unfold BodyNamed
  rw [h4]
  simp only [ENode.head, Prod.mk.injEq] at b
  exact ⟨a, fun h => b.2.1.trans (k.2 (b.1 ▸ h))⟩

theorem full_of_mem {s : St} {x : (Kind × Str × Option Str) × Attrs} (h : x ∈ s.fulls) : ∃ i, i < s.heap.length ∧ x = (s.n i).full := by
  obtain ⟨n, hn, rfl⟩ := List.mem_map.1 h
  obtain ⟨i, hi, hin⟩ := List.getElem_of_mem hn
  refine ⟨i, hi, ?_⟩
  rw [St.n, List.getD_eq_getElem?_getD, List.getElem?_eq_getElem hi, ← hin]
  rfl

/-- Every HTML element has the attributes that its name allows, and so have the entries for formatting elements. -/
structure AInv (C : Cfg) (s : St) : Prop where
  full : ∀ x ∈ s.fulls, FullOk C x
  fmt : ∀ e, some e ∈ s.fmt → AttrsOk C e.name e.attrs
  shell : C.fragment = false → Shelled s
  body : C.plan.rawMode = true → BodyNamed s

theorem Step.ainv [Ok C] {s t : St} (h : Step C s t) (k : AInv C s)
    (hs : ∀ i, i < s.heap.length → ∀ ns, (s.n i).ns = some ns → ns ≠ c%"justhtml-parser-only" → ns = c%"html") : AInv C t := by
  refine ⟨?_, ?_, fun hf => h.shelled (k.shell hf), fun hr => h.bodyNamed (k.body hr)⟩
  · rcases h.fulls k.fmt with ⟨l, h1, h2⟩ | ⟨i, as, h1, rfl⟩
    · rw [h1]
      exact fun x hx => (List.mem_append.1 hx).elim (k.full x) (h2 x)
    · intro x hx
      obtain ⟨j, hj, rfl⟩ := full_of_mem hx
      intro hkd hns
      have hj' : j < s.heap.length := by simpa [St.upd] using hj
      have hmem : (s.n j).full ∈ s.fulls := List.mem_map.2 ⟨s.n j, by
        rw [St.n, List.getD_eq_getElem?_getD, List.getElem?_eq_getElem hj']; exact List.getElem_mem hj', rfl⟩
      by_cases hij : j = i
      · subst hij
        have e : (s.upd j fun n => { n with attrs := as.foldl (fun acc p => if acc.any (fun x => x.1 = p.1) then acc else acc ++ [p]) n.attrs }).n j =
            { s.n j with attrs := as.foldl (fun acc p => if acc.any (fun x => x.1 = p.1) then acc else acc ++ [p]) (s.n j).attrs } := by
          unfold St.upd St.n
          simp [List.getD_eq_getElem?_getD, List.getElem?_set, hj']
        rw [e] at hkd hns ⊢
        have old : AttrsOk C (s.n j).name (s.n j).attrs := k.full _ hmem hkd hns
        have new : AttrsOk C (s.n j).name as := by
          rcases h1 with ⟨hfr, h1⟩ | ⟨hr, h1, h2, h3⟩
          · have sh := k.shell hfr
            rcases h1 with ⟨h1, h2⟩ | ⟨h1, h2⟩ | ⟨h1, h2⟩
            · rw [(sh.1 j h1).2]; exact h2
            · rw [(sh.2.1 j h1).2]; exact h2
            · rw [← h1, sh.2.2.2]; exact h2
          · rw [← h1] at h2 ⊢
            rw [(k.body hr).2 h2]; exact h3
        exact old.append new (merge_mem as _)
      · have e : (s.upd i fun n => { n with attrs := as.foldl (fun acc p => if acc.any (fun x => x.1 = p.1) then acc else acc ++ [p]) n.attrs }).n j = s.n j := by
          unfold St.upd St.n
          simp only [List.getD_eq_getElem?_getD]
          rw [List.getElem?_set_ne (Ne.symm hij)]
        rw [e] at hkd hns ⊢
        exact k.full _ hmem hkd hns
  · intro e he
    rcases h.fmt_cases with h1 | ⟨e', rfl, h1, h2, h3, _, _, h4, h5⟩
    · obtain ⟨e', a, b, c⟩ := h1 e he
      rw [b, c]; exact k.fmt e' a
    · rcases List.mem_append.1 he with he | he
      · exact k.fmt e he
      · have : e = e' := by simpa using he
        subst this
        cases hns : (s.n e.node).ns with
        | none => exact absurd hns h5
        | some ns =>
          have h6 := hs e.node h1 ns hns fun hx => h4 (by rw [hns, hx]; rfl)
          rw [h6] at hns
          rw [h2, ← h3 hns]
          exact k.full _ (List.mem_map.2 ⟨s.n e.node, by
            rw [St.n, List.getD_eq_getElem?_getD, List.getElem?_eq_getElem h1]; exact List.getElem_mem h1, rfl⟩) (fun h => h5 h) (fun n h _ => (Option.some.inj (hns.symm.trans h)).symm)

/-- A parse that meets no foreign element. -/
theorem Steps.ainv [Ok C] {s t : St} (h : Steps C s t) (hA2 : ∀ y, Named C y → nsOfStart y = c%"html") {l0 : List (Kind × Str × Option Str)}
    (h0 : ∀ x ∈ l0, ∀ ns, x.2.2 = some ns → ns ≠ c%"justhtml-parser-only" → ns = c%"html") (hs : Sourced C (· = c%"html") l0 s) (k : AInv C s) : AInv C t := by
  replace h := h.chain
  induction h with
  | refl => exact k
  | tail h st ih => exact st.ainv ih (h.sourced (A := (· = c%"html")) rfl hA2 h0 hs).ns

end

end JH.Eng
