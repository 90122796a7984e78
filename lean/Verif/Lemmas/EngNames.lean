import Verif.Lemmas.EngFinal

/-! Where the names and namespaces of elements come from. -/
namespace JH.Eng

section
variable {C : Cfg}

theorem append_fmt (s : St) (p c : Nat) : (s.append p c).fmt = s.fmt := by
  obtain ⟨k, hk⟩ := append_frame s p c
  rw [hk]

theorem detach_fmt (s : St) (c : Nat) : (s.detach c).fmt = s.fmt := by
  obtain ⟨k, hk⟩ := detach_frame s c
  rw [hk]

/-- What a step does to the list of formatting elements. -/
theorem Step.fmt_cases {s t : St} (h : Step C s t) :
    (∀ e, some e ∈ t.fmt → ∃ e', some e' ∈ s.fmt ∧ e.name = e'.name ∧ e.attrs = e'.attrs) ∨
    (∃ e, t = { s with fmt := s.fmt ++ [some e] } ∧ e.node < s.heap.length ∧ e.attrs = (s.n e.node).attrs ∧
      ((s.n e.node).ns = some c%"html" → (s.n e.node).name = e.name) ∧ (s.n e.node).kind ≠ .text ∧ Named C e.name ∧ (s.n e.node).ns ≠ poNs ∧ (s.n e.node).ns ≠ none) := by
  have same : ∀ {u : St}, u.fmt = s.fmt → ∀ e, some e ∈ u.fmt → ∃ e', some e' ∈ s.fmt ∧ e.name = e'.name ∧ e.attrs = e'.attrs :=
    fun hu e he => ⟨e, hu ▸ he, rfl, rfl⟩
  cases h with
  | ctl e =>
    simp only [St.core, Prod.mk.injEq] at e
    exact .inl (same e.2.2.2.2.2.2.2.1)
  | fmt l h => exact .inl h
  | entry e h1 h2 h3 h4 h5 h6 => exact .inr ⟨e, rfl, h1, h2, h3, h4, h5, h6⟩
  | move c p pos _ _ => exact .inl (same (detach_fmt s c))
  | wrap e u b _ _ _ _ => exact .inl (same (foldl_frame (f := fun s c => s.appendMoved _ c) St.fmt (fun _ _ => rfl) _ _))
  | clearBody => exact .inl (same (foldl_frame (f := fun s c => s.upd c fun n => { n with parent := none }) St.fmt (fun _ _ => rfl) _ _))
  | closePo i node parent _ _ => exact .inl (same (foldl_frame (f := fun s c => s.append parent c) St.fmt (fun s c => append_fmt s parent c) _ _))
  | _ => exact .inl (same rfl)

/-- The formatting elements have names of start tags. -/
def FmtNamed (C : Cfg) (s : St) : Prop := ∀ e, some e ∈ s.fmt → Named C e.name

theorem Step.fmtNamed {s t : St} (h : Step C s t) (k : FmtNamed C s) : FmtNamed C t := by
  intro e he
  rcases h.fmt_cases with h | ⟨e', rfl, _, _, _, _, h, _⟩
  · obtain ⟨e', h1, h2, _⟩ := h e he
    rw [h2]; exact k e' h1
  · rcases List.mem_append.1 he with he | he
    · exact k e he
    · have : e = e' := by simpa using he
      rw [this]; exact h

/-- The kind, name and namespace of a node that is made during a parse. `A` are the namespaces. -/
def HeadSrc (C : Cfg) (A : Str → Prop) (x : Kind × Str × Option Str) : Prop :=
  ((x.1 ≠ .element ∧ x.1 ≠ .template) ∧ x.2.2 = none) ∨ (x = (.element, c%"template", poNs) ∧ Named C c%"template") ∨
    ∃ y ns, Named C y ∧ x.2.1 = elName ns y ∧ x.2.2 = some ns ∧ ns ≠ c%"justhtml-parser-only" ∧ A ns

theorem LeafOk.headSrc {n : ENode} (h : LeafOk C n) (A : Str → Prop) : HeadSrc C A n.head := by
  refine .inl ⟨?_, h.2.2.2.1⟩
  rcases h.2.2.2.2 with h | ⟨h | h, _⟩ | ⟨h, _⟩ <;> simp [ENode.head, h]

/-- New nodes come at the end, with names and namespaces that have a source. -/
theorem Step.headSrc {s t : St} (h : Step C s t) (k : FmtNamed C s) (A : Str → Prop) (hA : A c%"html") (hA2 : ∀ y, Named C y → A (nsOfStart y))
    (hs : ∀ i, i < s.heap.length → ∀ ns, (s.n i).ns = some ns → ns ≠ c%"justhtml-parser-only" → A ns) :
    ∃ l, t.heads = s.heads ++ l ∧ ∀ x ∈ l, HeadSrc C A x := by
  have none : ∀ {u : St}, u.heads = s.heads → ∃ l, u.heads = s.heads ++ l ∧ ∀ x ∈ l, HeadSrc C A x := fun hu => ⟨[], by simp [hu], fun _ h => absurd h (by simp)⟩
  have one : ∀ {u : St} {n : ENode}, u.heads = s.heads ++ [n.head] → HeadSrc C A n.head → ∃ l, u.heads = s.heads ++ l ∧ ∀ x ∈ l, HeadSrc C A x :=
    fun {_ n} hu hn => ⟨[n.head], hu, fun x hx => by simp at hx; rw [hx]; exact hn⟩
  have ent : ∀ e, some e ∈ s.fmt → HeadSrc C A (elementNode e.name e.attrs (some c%"html")).head := fun e he =>
    .inr (.inr ⟨e.name, c%"html", k e he, rfl, rfl, by simp, hA⟩)
  cases h with
  | ctl h => exact none (heads_of (congrArg Prod.fst h))
  | stack l h => exact none (heads_of rfl)
  | fmt l h => exact none (heads_of rfl)
  | entry e h => exact none (heads_of rfl)
  | garbage n h => exact one (heads_add s n) (h.headSrc A)
  | data i f h => exact none (heads_upd _ _ _ fun _ => rfl)
  | leaf n p pos h => exact one ((heads_link _ _ _ _).trans (heads_add s n)) (h.headSrc A)
  | elem n l p pos u d h _ _ hsrc =>
    refine ⟨n.head :: l.map ENode.head, ?_, ?_⟩
    · refine (heads_of rfl).trans ((heads_link ({ s with heap := s.heap ++ n :: l } : St) p pos s.heap.length).trans ?_)
      simp [St.heads]
    · have hn : n.ns ≠ poNs → HeadSrc C A n.head := by
        intro hpo
        obtain ⟨y, ns, h1, h2, h3, h4⟩ := hsrc
        have hy : Named C y := h1.elim id fun ⟨e, he, hey⟩ => hey ▸ k e he
        have hne : ns ≠ c%"justhtml-parser-only" := fun hx => hpo (by rw [h3, hx]; rfl)
        refine .inr (.inr ⟨y, ns, hy, h2, h3, hne, ?_⟩)
        rcases h4 with h4 | h4 | ⟨i, hi, h4⟩
        · rw [h4]; exact hA2 y hy
        · rw [h4]; exact hA
        · exact hs i hi ns h4 hne
      cases h with
      | plain name attrs ns h1 h2 =>
        intro x hx
        have : x = (elementNode name attrs (some ns)).head := by simpa using hx
        rw [this]
        exact hn fun e => h1 (by simpa [elementNode, poNs] using e)
      | template attrs h =>
        intro x hx
        simp only [List.map_cons, List.map_nil, List.mem_cons, List.not_mem_nil, or_false] at hx
        rcases hx with rfl | rfl
        · exact hn (by simp [poNs])
        · exact .inl ⟨by simp [ENode.head], rfl⟩
  | clone e u h => exact one ((heads_of rfl).trans (heads_add s (elementNode e.name e.attrs (some c%"html")))) (ent e h)
  | poNew h => exact one ((heads_of rfl).trans (heads_add s (elementNode c%"template" [] poNs))) (.inr (.inl ⟨rfl, h⟩))
  | move c p pos h => exact none ((heads_link _ _ _ _).trans (heads_detach _ _))
  | wrap e u b h =>
    refine one (n := elementNode e.name e.attrs (some c%"html")) ?_ (ent e h)
    refine (heads_linkLast _ _ _).trans ((heads_moveChildren _ _ _).trans ?_)
    exact (heads_of rfl).trans (heads_add s _)
  | shrink p l h => exact none (heads_upd _ _ _ fun _ => rfl)
  | clearBody => exact none (heads_clearBody s)
  | dropBody => exact none (heads_two _ _ _ _ _ (fun _ => rfl) fun _ => rfl)
  | closePo i node parent h =>
    exact none ((heads_of rfl).trans (heads_foldl (f := fun s c => s.append parent c) (fun s c => heads_append s _ c) _ _))
  | attrs i as h => exact none (heads_upd _ _ _ fun _ => rfl)

/-- What is known of all nodes during a parse that began with the nodes `l0`. -/
structure Sourced (C : Cfg) (A : Str → Prop) (l0 : List (Kind × Str × Option Str)) (s : St) : Prop where
  fmt : FmtNamed C s
  heads : ∃ l, s.heads = l0 ++ l ∧ ∀ x ∈ l, HeadSrc C A x
  ns : ∀ i, i < s.heap.length → ∀ ns, (s.n i).ns = some ns → ns ≠ c%"justhtml-parser-only" → A ns

theorem ns_of_mem {s : St} {l : List (Kind × Str × Option Str)} (h : s.heads = l) (i : Nat) (hi : i < s.heap.length) : (s.n i).head ∈ l := by
  rw [← h]
  refine List.mem_map.2 ⟨s.n i, ?_, rfl⟩
  rw [St.n, List.getD_eq_getElem?_getD, List.getElem?_eq_getElem hi]
  exact List.getElem_mem hi

theorem HeadSrc.ns {A : Str → Prop} {x : Kind × Str × Option Str} (h : HeadSrc C A x) {ns : Str} (hx : x.2.2 = some ns)
    (hne : ns ≠ c%"justhtml-parser-only") : A ns := by
  rcases h with ⟨_, h⟩ | ⟨h, _⟩ | ⟨y, ns', _, _, h, _, hA⟩
  · rw [h] at hx; exact absurd hx (by simp)
  · rw [h] at hx
    exact absurd (by simpa [poNs] using hx.symm) hne
  · rw [h] at hx
    have : ns' = ns := by simpa using hx
    exact this ▸ hA

theorem Chain.sourced {s t : St} (h : Chain C s t) {A : Str → Prop} (hA : A c%"html") (hA2 : ∀ y, Named C y → A (nsOfStart y)) {l0 : List (Kind × Str × Option Str)}
    (h0 : ∀ x ∈ l0, ∀ ns, x.2.2 = some ns → ns ≠ c%"justhtml-parser-only" → A ns) (hs : Sourced C A l0 s) : Sourced C A l0 t := by
  induction h with
  | refl => exact hs
  | tail _ st ih =>
    obtain ⟨l, h1, h2⟩ := ih.heads
    obtain ⟨l', h1', h2'⟩ := st.headSrc ih.fmt A hA hA2 ih.ns
    have hl : ∀ x ∈ l ++ l', HeadSrc C A x := fun x hx => (List.mem_append.1 hx).elim (h2 x) (h2' x)
    have hh := h1'.trans (by rw [h1, List.append_assoc])
    refine ⟨st.fmtNamed ih.fmt, ⟨l ++ l', hh, hl⟩, fun i hi ns hn hne => ?_⟩
    rcases List.mem_append.1 (ns_of_mem hh i hi) with hm | hm
    · exact h0 _ hm ns hn hne
    · exact (hl _ hm).ns hn hne

theorem Steps.sourced {s t : St} (h : Steps C s t) {A : Str → Prop} (hA : A c%"html") (hA2 : ∀ y, Named C y → A (nsOfStart y)) {l0 : List (Kind × Str × Option Str)}
    (h0 : ∀ x ∈ l0, ∀ ns, x.2.2 = some ns → ns ≠ c%"justhtml-parser-only" → A ns) (hs : Sourced C A l0 s) : Sourced C A l0 t := h.chain.sourced hA hA2 h0 hs

/-- At the start. -/
theorem Sourced.start {A : Str → Prop} {s : St} (hf : s.fmt = []) (h : ∀ x ∈ s.heads, ∀ ns, x.2.2 = some ns → ns ≠ c%"justhtml-parser-only" → A ns) : Sourced C A s.heads s :=
  ⟨fun e he => absurd he (by simp [hf]), ⟨[], by simp, fun _ hx => absurd hx (by simp)⟩, fun i hi ns hn hne => h _ (ns_of_mem rfl i hi) ns hn hne⟩

/-- `hasSelected` is set for an element of that name only. -/
theorem Step.selected {s t : St} (h : Step C s t) : t.hasSelected = s.hasSelected ∨ ∃ n, Src C s n ∧ n.name = c%"selectedcontent" := by
  cases h with
  | ctl e =>
    simp only [St.core, Prod.mk.injEq] at e
    exact .inl e.2.2.2.2.2.2.2.2.2.2
  | elem n l p pos u d h _ _ hsrc =>
    by_cases hn : n.name = c%"selectedcontent"
    · exact .inr ⟨n, hsrc, hn⟩
    · left; show (s.hasSelected || _) = _; simp [hn]
  | move c p pos _ _ =>
    obtain ⟨k, hk⟩ := detach_frame s c
    exact .inl (show (s.detach c).hasSelected = s.hasSelected by rw [hk])
  | wrap e u b _ _ _ _ => exact .inl (foldl_frame (f := fun s c => s.appendMoved _ c) St.hasSelected (fun _ _ => rfl) _ _)
  | clearBody => exact .inl (foldl_frame (f := fun s c => s.upd c fun n => { n with parent := none }) St.hasSelected (fun _ _ => rfl) _ _)
  | closePo i node parent _ _ => exact .inl (foldl_frame (f := fun s c => s.append parent c) St.hasSelected (fun s c => by
      obtain ⟨k, hk⟩ := append_frame s parent c
      rw [hk]) _ _)
  | _ => exact .inl rfl

theorem lookup_mem {β : Type} {name : Str} {v : β} : ∀ {l : List (Str × β)}, l.lookup name = some v → (name, v) ∈ l
  | [], h => absurd h (by simp)
  | (a, b) :: l, h => by
    rw [List.lookup_cons] at h
    split at h
    · next he =>
      have h1 : name = a := by simpa using he
      have h2 : b = v := by simpa using h
      simp [h1, h2]
    · exact List.mem_cons_of_mem _ (lookup_mem h)

theorem adjust_or (name : Str) : adjust svgTagAdjust name = name ∨ adjust svgTagAdjust name ∈ svgTagAdjust.map Prod.snd := by
  unfold adjust
  cases h : svgTagAdjust.lookup name with
  | none => exact .inl rfl
  | some v =>
    right
    exact List.mem_map.2 ⟨(name, v), lookup_mem h, rfl⟩

theorem elName_selected {ns y : Str} (h : elName ns y = c%"selectedcontent") : y = c%"selectedcontent" := by
  unfold elName at h
  split at h
  · rcases adjust_or y with k | k
    · rw [k] at h; exact h
    · rw [h] at k; exact absurd k (by decide +kernel)
  · exact h

/-- Without a tag of that name there is nothing to project. -/
theorem Steps.selected {s t : St} (h : Steps C s t) (hs : FmtNamed C s ∧ s.hasSelected = false) (hno : ¬ Named C c%"selectedcontent") :
    FmtNamed C t ∧ t.hasSelected = false := by
  replace h := h.chain
  induction h with
  | refl => exact hs
  | tail _ st ih =>
    refine ⟨st.fmtNamed ih.1, ?_⟩
    rcases st.selected with h | ⟨n, ⟨y, ns, h1, h2, _⟩, h3⟩
    · rw [h]; exact ih.2
    · have hy : Named C y := h1.elim id fun ⟨e, he, hey⟩ => hey ▸ ih.1 e he
      rw [h3] at h2
      rw [elName_selected h2.symm] at hy
      exact absurd hy hno

end

end JH.Eng
