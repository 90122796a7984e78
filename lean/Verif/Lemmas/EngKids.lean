import Verif.Lemmas.EngBase

/-! Which nodes are children of which. -/
namespace JH.Eng

/-! ### How the tree operations change children and parents -/

theorem kids_upd (s : St) (i j : Nat) (f : ENode → ENode) (h : ∀ n, (f n).children = n.children) : ((s.upd i f).n j).children = (s.n j).children := by
  rw [n_upd]
  split
  · next hx => rw [h, hx.1]
  · rfl

theorem parent_upd (s : St) (i j : Nat) (f : ENode → ENode) (h : ∀ n, (f n).parent = n.parent) : ((s.upd i f).n j).parent = (s.n j).parent := by
  rw [n_upd]
  split
  · next hx => rw [h, hx.1]
  · rfl

theorem ns_upd (s : St) (i j : Nat) (f : ENode → ENode) (h : ∀ n, (f n).ns = n.ns) : ((s.upd i f).n j).ns = (s.n j).ns := by
  rw [n_upd]
  split
  · next hx => rw [h, hx.1]
  · rfl

/-- The children of the nodes in `L` are in the heap and not the parser's own; one that is recorded has its parent set right, and is there once. -/
def Kids (L R : Nat → Prop) (s : St) : Prop :=
  ∀ p, L p → ∀ c ∈ (s.n p).children, c < s.heap.length ∧ (s.n c).ns ≠ poNs ∧ (R c → (s.n c).parent = some p ∧ (s.n p).children.count c = 1)

/-- A node is nowhere a child. -/
def Loose (L : Nat → Prop) (s : St) (c : Nat) : Prop := ∀ p, L p → c ∉ (s.n p).children

theorem Kids.mono {L L' R : Nat → Prop} {s : St} (h : Kids L R s) (k : ∀ p, L' p → L p) : Kids L' R s := fun p hp => h p (k p hp)

theorem Kids.of_heap {L R : Nat → Prop} {s t : St} (h : Kids L R s) (e : t.heap = s.heap) : Kids L R t := by
  have hn : ∀ i, t.n i = s.n i := fun i => by unfold St.n; rw [e]
  intro p hp c hc
  rw [hn, hn, e]
  exact h p hp c (by rw [← hn]; exact hc)

theorem Loose.of_heap {L : Nat → Prop} {s t : St} {c : Nat} (h : Loose L s c) (e : t.heap = s.heap) : Loose L t c := by
  intro p hp hc
  have : t.n p = s.n p := by unfold St.n; rw [e]
  exact h p hp (this ▸ hc)

/-- A recorded node has only one place. -/
theorem Kids.unique {L R : Nat → Prop} {s : St} (h : Kids L R s) {p q c : Nat} (hp : L p) (hq : L q) (hc : R c) (h1 : c ∈ (s.n p).children)
    (h2 : c ∈ (s.n q).children) : p = q := by
  have := ((h p hp c h1).2.2 hc).1.symm.trans ((h q hq c h2).2.2 hc).1
  simpa using this

theorem n_link (s : St) (p pos c j : Nat) : (s.link p pos c).n j =
    { s.n j with
      children := if p = j ∧ p < s.heap.length then (s.n j).children.take pos ++ c :: (s.n j).children.drop pos else (s.n j).children
      parent := if c = j ∧ c < s.heap.length then some p else (s.n j).parent } := by
  unfold St.link
  rw [n_upd, len_upd, n_upd, n_upd]
  by_cases h1 : c = j ∧ c < s.heap.length <;> by_cases h2 : p = j ∧ p < s.heap.length
  · obtain ⟨rfl, _⟩ := h1; obtain ⟨rfl, _⟩ := h2; simp_all
  · obtain ⟨rfl, _⟩ := h1
    have : ¬ (p = c ∧ p < s.heap.length) := h2
    simp_all
  · obtain ⟨rfl, _⟩ := h2; simp_all
  · rw [if_neg h1, if_neg h2, if_neg h2, if_neg h1]

theorem count_insert {l : List Nat} {pos c x : Nat} : (l.take pos ++ c :: l.drop pos).count x = l.count x + if c = x then 1 else 0 := by
  have h : l.count x = (l.take pos).count x + (l.drop pos).count x := by rw [← List.count_append, List.take_append_drop]
  rw [List.count_append, List.count_cons, h]
  by_cases hx : c = x
  · simp [hx]; omega
  · simp [hx]

theorem mem_insert {l : List Nat} {pos c x : Nat} : x ∈ l.take pos ++ c :: l.drop pos ↔ x = c ∨ x ∈ l := by
  constructor
  · intro h
    rcases List.mem_append.1 h with h | h
    · exact .inr (List.mem_of_mem_take h)
    · rcases List.mem_cons.1 h with h | h
      · exact .inl h
      · exact .inr (List.mem_of_mem_drop h)
  · rintro (h | h)
    · subst h; simp
    · rw [← List.take_append_drop pos l] at h
      rcases List.mem_append.1 h with h | h
      · exact List.mem_append_left _ h
      · exact List.mem_append_right _ (List.mem_cons_of_mem _ h)

theorem len_link (s : St) (p pos c : Nat) : (s.link p pos c).heap.length = s.heap.length := by unfold St.link; rw [len_upd, len_upd]

/-- Linking a node that has no place, or that is not recorded. -/
theorem Kids.link {L R : Nat → Prop} {s : St} (h : Kids L R s) (p pos c : Nat) (hc : c < s.heap.length) (hns : (s.n c).ns ≠ poNs)
    (hl : R c → Loose L s c) : Kids L R (s.link p pos c) := by
  intro j hj x hx
  rw [n_link] at hx
  simp only at hx
  have hns' : ((s.link p pos c).n x).ns = (s.n x).ns := by rw [n_link]
  rw [hns', len_link, n_link, n_link]
  simp only
  by_cases hp : p = j ∧ p < s.heap.length
  · rw [if_pos hp] at hx ⊢
    obtain ⟨rfl, hpl⟩ := hp
    by_cases hxc : x = c
    · subst hxc
      refine ⟨hc, hns, fun hR => ⟨by simp [hc], ?_⟩⟩
      rw [count_insert, if_pos rfl, List.count_eq_zero_of_not_mem (hl hR _ hj)]
    · rcases mem_insert.1 hx with h' | h'
      · exact absurd h' hxc
      · obtain ⟨a, b, d⟩ := h p hj x h'
        refine ⟨a, b, fun hR => ?_⟩
        have hcx : ¬ c = x := fun e => hxc e.symm
        rw [count_insert, if_neg hcx, if_neg (fun e => hcx e.1)]
        exact d hR
  · rw [if_neg hp] at hx ⊢
    obtain ⟨a, b, d⟩ := h j hj x hx
    refine ⟨a, b, fun hR => ?_⟩
    by_cases hcx : c = x
    · subst hcx; exact absurd hx (hl hR j hj)
    · rw [if_neg (fun e => hcx e.1)]; exact d hR

theorem Loose.link {L : Nat → Prop} {s : St} {x : Nat} (h : Loose L s x) (p pos c : Nat) (hne : x ≠ c) : Loose L (s.link p pos c) x := by
  intro j hj hx
  rw [n_link] at hx
  simp only at hx
  split at hx
  · rcases mem_insert.1 hx with e | e
    · exact hne e
    · exact h j hj e
  · exact h j hj hx

theorem Kids.linkLast {L R : Nat → Prop} {s : St} (h : Kids L R s) (p c : Nat) (hc : c < s.heap.length) (hns : (s.n c).ns ≠ poNs)
    (hl : R c → Loose L s c) : Kids L R (s.linkLast p c) := by rw [linkLast_eq]; exact h.link p _ c hc hns hl

theorem Loose.linkLast {L : Nat → Prop} {s : St} {x : Nat} (h : Loose L s x) (p c : Nat) (hne : x ≠ c) : Loose L (s.linkLast p c) x := by
  rw [linkLast_eq]; exact h.link p _ c hne

/-- A change that keeps children, parents and namespaces. -/
theorem Kids.same {L R : Nat → Prop} {s t : St} (h : Kids L R s) (hl : t.heap.length = s.heap.length)
    (hn : ∀ i, (t.n i).children = (s.n i).children ∧ (t.n i).parent = (s.n i).parent ∧ (t.n i).ns = (s.n i).ns) : Kids L R t := by
  intro p hp c hc
  rw [(hn p).1] at hc ⊢
  rw [(hn c).2.1, (hn c).2.2, hl]
  exact h p hp c hc

theorem Loose.same {L : Nat → Prop} {s t : St} {c : Nat} (h : Loose L s c) (hn : ∀ i, (t.n i).children = (s.n i).children) : Loose L t c := by
  intro p hp hc
  exact h p hp (hn p ▸ hc)

theorem n_remove (s : St) (p c j : Nat) (q : Option Nat) :
    ((s.upd p fun n => { n with children := n.children.erase c }).upd c fun n => { n with parent := q }).n j =
    { s.n j with
      children := if p = j ∧ p < s.heap.length then (s.n j).children.erase c else (s.n j).children
      parent := if c = j ∧ c < s.heap.length then q else (s.n j).parent } := by
  rw [n_upd, len_upd, n_upd, n_upd]
  by_cases h1 : c = j ∧ c < s.heap.length <;> by_cases h2 : p = j ∧ p < s.heap.length
  · obtain ⟨rfl, _⟩ := h1; obtain ⟨rfl, _⟩ := h2; simp_all
  · obtain ⟨rfl, _⟩ := h1
    have : ¬ (p = c ∧ p < s.heap.length) := h2
    simp_all
  · obtain ⟨rfl, _⟩ := h2; simp_all
  · rw [if_neg h1, if_neg h2, if_neg h2, if_neg h1]

/-- Removing a node that is not recorded, or from the place where it is. -/
theorem Kids.remove {L R : Nat → Prop} {s : St} (h : Kids L R s) (p c : Nat) (q : Option Nat)
    (hp : R c → (s.n c).parent = some p ∨ Loose L s c) : 
    Kids L R ((s.upd p fun n => { n with children := n.children.erase c }).upd c fun n => { n with parent := q }) ∧
    (R c → Loose L ((s.upd p fun n => { n with children := n.children.erase c }).upd c fun n => { n with parent := q }) c) := by
  have hloose : R c → Loose L ((s.upd p fun n => { n with children := n.children.erase c }).upd c fun n => { n with parent := q }) c := by
    intro hR j hj hx
    rw [n_remove] at hx
    simp only at hx
    split at hx
    · next hpj =>
      obtain ⟨rfl, _⟩ := hpj
      have h1 := (h p hj c (List.mem_of_mem_erase hx)).2.2 hR
      have h2 : ((s.n p).children.erase c).count c = 0 := by rw [List.count_erase_self, h1.2]
      exact absurd (List.count_pos_iff.2 hx) (by omega)
    · next hpj =>
      rcases hp hR with h3 | h3
      · have h1 := ((h j hj c hx).2.2 hR).1
        rw [h1] at h3
        have : j = p := by simpa using h3
        subst this
        have hlt : j < s.heap.length := by
          by_cases hlt : j < s.heap.length
          · exact hlt
          · rw [n_ge s (Nat.not_lt.1 hlt)] at hx; exact absurd hx (by simp [default, instInhabitedENode, instInhabitedENode.default])
        exact hpj ⟨rfl, hlt⟩
      · exact h3 j hj hx
  refine ⟨fun j hj x hx => ?_, hloose⟩
  by_cases hxc : R c ∧ x = c
  · exact absurd (hxc.2 ▸ hx) (hloose hxc.1 j hj)
  · rw [n_remove] at hx
    simp only at hx
    rw [len_upd, len_upd, n_remove, n_remove]
    simp only
    have key : ∀ x ∈ (s.n j).children, c ≠ x → x < s.heap.length ∧ (s.n x).ns ≠ poNs ∧ (R x → (if c = x ∧ c < s.heap.length then q else (s.n x).parent) = some j ∧
        (s.n j).children.count x = 1) := fun x hx hne => by
      obtain ⟨a, b, d⟩ := h j hj x hx
      refine ⟨a, b, fun hR => ?_⟩
      rw [if_neg fun e => hne e.1]
      exact d hR
    by_cases hcx : c = x
    · subst hcx
      have hnR : ¬ R c := fun hR => hxc ⟨hR, rfl⟩
      have hm : c ∈ (s.n j).children := by
        split at hx
        · exact List.mem_of_mem_erase hx
        · exact hx
      obtain ⟨a, b, _⟩ := h j hj c hm
      exact ⟨a, b, fun hR => absurd hR hnR⟩
    · split at hx
      · next hpj =>
        rw [if_pos hpj, List.count_erase_of_ne (fun e => hcx e.symm)]
        exact key x (List.mem_of_mem_erase hx) hcx
      · next hpj =>
        rw [if_neg hpj]
        exact key x hx hcx

/-- What has no place gets none by removing. -/
theorem Loose.remove {L : Nat → Prop} {s : St} {x : Nat} (h : Loose L s x) (p c : Nat) (q : Option Nat) :
    Loose L ((s.upd p fun n => { n with children := n.children.erase c }).upd c fun n => { n with parent := q }) x := by
  intro j hj hx
  rw [n_remove] at hx
  simp only at hx
  split at hx
  · exact h j hj (List.mem_of_mem_erase hx)
  · exact h j hj hx

theorem Kids.detach {L R : Nat → Prop} {s : St} (h : Kids L R s) (c : Nat) : Kids L R (s.detach c) ∧ (R c → Loose L (s.detach c) c) := by
  unfold St.detach
  cases hp : (s.n c).parent with
  | none =>
    refine ⟨h, fun hR j hj hx => ?_⟩
    have := ((h j hj c hx).2.2 hR).1
    rw [hp] at this
    exact absurd this (by simp)
  | some p =>
    simp only
    split
    · exact h.remove p c none fun _ => .inl hp
    · next hc =>
      refine ⟨h, fun hR j hj hx => ?_⟩
      have := ((h j hj c hx).2.2 hR).1
      rw [hp] at this
      have : p = j := by simpa using this
      subst this
      exact hc (by simpa using hx)

theorem Loose.detach {L : Nat → Prop} {s : St} {x : Nat} (h : Loose L s x) (c : Nat) : Loose L (s.detach c) x := by
  unfold St.detach
  cases hp : (s.n c).parent with
  | none => exact h
  | some p =>
    simp only
    split
    · exact h.remove p c none
    · exact h

theorem ns_of_heads {s t : St} (h : t.heads = s.heads) (i : Nat) : (t.n i).ns = (s.n i).ns ∧ (t.n i).kind = (s.n i).kind ∧ (t.n i).name = (s.n i).name := by
  have hl : t.heap.length = s.heap.length := by have := congrArg List.length h; simpa [St.heads] using this
  by_cases hi : i < s.heap.length
  · have h1 : (t.n i).head = (s.n i).head := by
      have := congrArg (fun l => l[i]?) h
      simp only [St.heads, List.getElem?_map, List.getElem?_eq_getElem hi, List.getElem?_eq_getElem (hl ▸ hi), Option.map_some, Option.some.injEq] at this
      simpa [St.n, List.getD_eq_getElem?_getD, List.getElem?_eq_getElem hi, List.getElem?_eq_getElem (hl ▸ hi)] using this
    simp only [ENode.head, Prod.mk.injEq] at h1
    exact ⟨h1.2.2, h1.1, h1.2.1⟩
  · rw [n_ge s (Nat.not_lt.1 hi), n_ge t (by omega)]
    exact ⟨rfl, rfl, rfl⟩

theorem len_of_heads {s t : St} (h : t.heads = s.heads) : t.heap.length = s.heap.length := by
  have := congrArg List.length h; simpa [St.heads] using this

theorem Kids.data {L R : Nat → Prop} {s : St} (h : Kids L R s) (i : Nat) (f : ENode → ENode) (h1 : ∀ n, (f n).children = n.children)
    (h2 : ∀ n, (f n).parent = n.parent) (h3 : ∀ n, (f n).ns = n.ns) : Kids L R (s.upd i f) :=
  h.same (len_upd _ _ _) fun j => ⟨kids_upd _ _ _ _ h1, parent_upd _ _ _ _ h2, ns_upd _ _ _ _ h3⟩

/-- Appending loose nodes one after another. Merged texts are not recorded. -/
theorem Kids.appendAll {L R : Nat → Prop} (p : Nat) : ∀ (l : List Nat) {s : St}, Kids L R s →
    (∀ c ∈ l, c < s.heap.length ∧ (s.n c).ns ≠ poNs ∧ (R c → Loose L s c ∧ l.count c = 1)) →
    Kids L R (l.foldl (fun s c => s.append p c) s) ∧ ∀ x, x ∉ l → Loose L s x → Loose L (l.foldl (fun s c => s.append p c) s) x := by
  intro l
  induction l with
  | nil => exact fun h _ => ⟨h, fun _ _ h => h⟩
  | cons c l ih =>
    intro s h hl
    obtain ⟨hc, hns, hR⟩ := hl c (by simp)
    have hh := heads_append s p c
    have hlen := len_of_heads hh
    have hlink : Kids L R (s.linkLast p c) := h.linkLast p c hc hns fun k => (hR k).1
    have hkind : ∀ l', Kids L R (s.upd l' fun n => { n with data := n.data ++ (s.n c).data }) := fun l' =>
      h.data l' _ (fun _ => rfl) (fun _ => rfl) fun _ => rfl
    have h1 : Kids L R (s.append p c) := by
      unfold St.append
      split
      · split
        · exact hkind _
        · exact hlink
      · exact hlink
    have h2 : ∀ x, x ≠ c → Loose L s x → Loose L (s.append p c) x := by
      intro x hne hx
      unfold St.append
      split
      · split
        · exact hx.same fun i => kids_upd _ _ _ _ fun _ => rfl
        · exact hx.linkLast p c hne
      · exact hx.linkLast p c hne
    have h3 := ih (s := s.append p c) h1 (by
      intro x hx
      obtain ⟨a, b, d⟩ := hl x (by simp [hx])
      have hx3 := ns_of_heads hh x
      rw [hlen, hx3.1]
      refine ⟨a, b, fun hRx => ?_⟩
      obtain ⟨d1, d2⟩ := d hRx
      have hne : x ≠ c := by
        intro e
        subst e
        rw [List.count_cons_self] at d2
        have := List.count_pos_iff.2 hx
        omega
      refine ⟨h2 x hne d1, ?_⟩
      rw [List.count_cons_of_ne (fun e => hne e.symm)] at d2
      exact d2)
    refine ⟨h3.1, fun x hx hlx => h3.2 x (fun e => hx (by simp [e])) (h2 x (fun e => hx (by simp [e])) hlx)⟩

/-- The same with `linkLast`. -/
theorem Kids.linkAll {L R : Nat → Prop} (p : Nat) : ∀ (l : List Nat) {s : St}, Kids L R s →
    (∀ c ∈ l, c < s.heap.length ∧ (s.n c).ns ≠ poNs ∧ (R c → Loose L s c ∧ l.count c = 1)) →
    Kids L R (l.foldl (fun s c => s.linkLast p c) s) ∧ ∀ x, x ∉ l → Loose L s x → Loose L (l.foldl (fun s c => s.linkLast p c) s) x := by
  intro l
  induction l with
  | nil => exact fun h _ => ⟨h, fun _ _ h => h⟩
  | cons c l ih =>
    intro s h hl
    obtain ⟨hc, hns, hR⟩ := hl c (by simp)
    have hh := heads_linkLast s p c
    have hlen := len_of_heads hh
    have h1 : Kids L R (s.linkLast p c) := h.linkLast p c hc hns fun k => (hR k).1
    have h3 := ih (s := s.linkLast p c) h1 (by
      intro x hx
      obtain ⟨a, b, d⟩ := hl x (by simp [hx])
      have hx3 := ns_of_heads hh x
      rw [hlen, hx3.1]
      refine ⟨a, b, fun hRx => ?_⟩
      obtain ⟨d1, d2⟩ := d hRx
      have hne : x ≠ c := by
        intro e
        subst e
        rw [List.count_cons_self] at d2
        have := List.count_pos_iff.2 hx
        omega
      refine ⟨d1.linkLast p c hne, ?_⟩
      rw [List.count_cons_of_ne (fun e => hne e.symm)] at d2
      exact d2)
    refine ⟨h3.1, fun x hx hlx => h3.2 x (fun e => hx (by simp [e])) (hlx.linkLast p c fun e => hx (by simp [e]))⟩

theorem n_grow {s t : St} {l : List ENode} (e : t.heap = s.heap ++ l) {i : Nat} (hi : i < s.heap.length) : t.n i = s.n i := by
  unfold St.n; rw [e]; simp [List.getD_eq_getElem?_getD, List.getElem?_append_left hi]

theorem n_grow' {s t : St} {l : List ENode} (e : t.heap = s.heap ++ l) {i : Nat} (hi : s.heap.length ≤ i) (hi' : i < t.heap.length) : t.n i ∈ l := by
  unfold St.n
  have hlen : i - s.heap.length < l.length := by rw [e, List.length_append] at hi'; omega
  rw [e, List.getD_eq_getElem?_getD, List.getElem?_append_right hi, List.getElem?_eq_getElem hlen]
  exact List.getElem_mem hlen

theorem Kids.grow {L R L' R' : Nat → Prop} {s t : St} {l : List ENode} (h : Kids L R s) (e : t.heap = s.heap ++ l) (hl : ∀ n ∈ l, n.children = [])
    (hL : ∀ p, p < s.heap.length → L' p → L p) (hR : ∀ c, c < s.heap.length → R' c → R c) :
    Kids L' R' t ∧ ∀ c, s.heap.length ≤ c → Loose L' t c := by
  have hlen : s.heap.length ≤ t.heap.length := by rw [e]; simp
  have hkids : ∀ p, s.heap.length ≤ p → (t.n p).children = [] := by
    intro p hp
    by_cases hpt : p < t.heap.length
    · exact hl _ (n_grow' e hp hpt)
    · rw [n_ge t (Nat.not_lt.1 hpt)]; rfl
  constructor
  · intro p hp c hc
    by_cases hps : p < s.heap.length
    · rw [n_grow e hps] at hc ⊢
      obtain ⟨a, b, d⟩ := h p (hL p hps hp) c hc
      rw [n_grow e a]
      exact ⟨Nat.lt_of_lt_of_le a hlen, b, fun hRc => d (hR c a hRc)⟩
    · rw [hkids p (Nat.not_lt.1 hps)] at hc; exact absurd hc (by simp)
  · intro c hc p hp hcp
    by_cases hps : p < s.heap.length
    · rw [n_grow e hps] at hcp
      have := (h p (hL p hps hp) c hcp).1
      omega
    · rw [hkids p (Nat.not_lt.1 hps)] at hcp; exact absurd hcp (by simp)

theorem content_upd (s : St) (i j : Nat) (f : ENode → ENode) (h : ∀ n, (f n).content = n.content) : ((s.upd i f).n j).content = (s.n j).content := by
  rw [n_upd]
  split
  · next hx => rw [h, hx.1]
  · rfl

theorem content_two (s : St) (i k j : Nat) (f g : ENode → ENode) (h : ∀ n, (f n).content = n.content) (h' : ∀ n, (g n).content = n.content) :
    (((s.upd i f).upd k g).n j).content = (s.n j).content := (content_upd _ _ _ _ h').trans (content_upd _ _ _ _ h)

theorem content_link (s : St) (p pos c j : Nat) : ((s.link p pos c).n j).content = (s.n j).content := content_two _ _ _ _ _ _ (fun _ => rfl) fun _ => rfl
theorem content_linkLast (s : St) (p c j : Nat) : ((s.linkLast p c).n j).content = (s.n j).content := content_two _ _ _ _ _ _ (fun _ => rfl) fun _ => rfl

theorem content_append (s : St) (p c j : Nat) : ((s.append p c).n j).content = (s.n j).content := by
  unfold St.append
  split
  · split
    · exact content_upd _ _ _ _ fun _ => rfl
    · exact content_linkLast _ _ _ _
  · exact content_linkLast _ _ _ _

theorem content_detach (s : St) (c j : Nat) : ((s.detach c).n j).content = (s.n j).content := by
  unfold St.detach
  split
  · rfl
  · split
    · exact content_two _ _ _ _ _ _ (fun _ => rfl) fun _ => rfl
    · rfl

theorem content_foldl {f : St → Nat → St} (h : ∀ s c j, ((f s c).n j).content = (s.n j).content) (l : List Nat) :
    ∀ s j, ((l.foldl f s).n j).content = (s.n j).content := by
  induction l with
  | nil => exact fun _ _ => rfl
  | cons x l ih => exact fun s j => (ih _ j).trans (h s x j)

theorem foldl_frame {α : Type} {f : St → Nat → St} (g : St → α) (h : ∀ s c, g (f s c) = g s) (l : List Nat) : ∀ s, g (l.foldl f s) = g s := by
  induction l with
  | nil => exact fun _ => rfl
  | cons x l ih => exact fun s => (ih _).trans (h s x)

theorem append_frame (s : St) (p c : Nat) : ∃ h, s.append p c = { s with heap := h } := by
  unfold St.append
  split
  · split <;> exact ⟨_, rfl⟩
  · exact ⟨_, rfl⟩

theorem detach_frame (s : St) (c : Nat) : ∃ h, s.detach c = { s with heap := h } := by
  unfold St.detach
  split
  · exact ⟨s.heap, rfl⟩
  · split
    · exact ⟨_, rfl⟩
    · exact ⟨s.heap, rfl⟩

theorem foldl_heap {f : St → Nat → St} (h : ∀ s c, ∃ k, f s c = { s with heap := k }) (l : List Nat) : ∀ s, ∃ k, l.foldl f s = { s with heap := k } := by
  induction l with
  | nil => exact fun s => ⟨s.heap, rfl⟩
  | cons x l ih =>
    intro s
    obtain ⟨k, hk⟩ := h s x
    obtain ⟨k', hk'⟩ := ih (f s x)
    refine ⟨k', ?_⟩
    rw [List.foldl_cons, hk', hk]

theorem slot_element {s : St} {i : Nat} (h : (s.n i).kind = .element) : s.slot i = i := by unfold St.slot; rw [h]; simp

theorem appendMoved_foldl (b : Nat) : ∀ (l : List Nat) (s : St), (s.n b).kind = .element →
    l.foldl (fun s c => s.appendMoved b c) s = l.foldl (fun s c => s.linkLast b c) s := by
  intro l
  induction l with
  | nil => intro _ _; rfl
  | cons c l ih =>
    intro s hk
    have h1 : s.appendMoved b c = s.linkLast b c := by unfold St.appendMoved; rw [slot_element hk]
    rw [List.foldl_cons, List.foldl_cons, h1]
    exact ih _ (by rw [(ns_of_heads (heads_linkLast s b c) b).2.1]; exact hk)

theorem n_add (s : St) (n : ENode) : (s.add n).n s.heap.length = n := by unfold St.n St.add; simp

theorem live_frame {s t : St} (hh : t.heads = s.heads) (hs : t.stack = s.stack) (i : Nat) : Live t i ↔ Live s i := by
  unfold Live
  rw [(ns_of_heads hh i).1, hs]

theorem parents_none (l : List Nat) : ∀ (s : St) (j : Nat), ((l.foldl (fun s c => s.upd c fun n => { n with parent := none }) s).n j).children = (s.n j).children ∧
    (j ∉ l → ((l.foldl (fun s c => s.upd c fun n => { n with parent := none }) s).n j).parent = (s.n j).parent) := by
  induction l with
  | nil => exact fun _ _ => ⟨rfl, fun _ => rfl⟩
  | cons c l ih =>
    intro s j
    rw [List.foldl_cons]
    refine ⟨(ih _ j).1.trans (kids_upd _ _ _ _ fun _ => rfl), fun hj => ((ih _ j).2 fun k => hj (by simp [k])).trans ?_⟩
    rw [n_upd_ne _ _ fun e => hj (by simp [e])]

/-- The nodes that never change. -/
def St.fixed (s : St) : Nat × Option Nat × Option Nat × Nat × Option Nat := (s.doc, s.html, s.head, s.body, s.ctxNode)

theorem append_fixed (s : St) (p c : Nat) : (s.append p c).fixed = s.fixed := by
  obtain ⟨k, hk⟩ := append_frame s p c
  rw [hk]; rfl

theorem detach_fixed (s : St) (c : Nat) : (s.detach c).fixed = s.fixed := by
  obtain ⟨k, hk⟩ := detach_frame s c
  rw [hk]; rfl

theorem mem_lt {s : St} {p c : Nat} (h : c ∈ (s.n p).children) : p < s.heap.length := by
  rcases Nat.lt_or_ge p s.heap.length with hlt | hge
  · exact hlt
  · rw [n_ge s hge] at h
    exact absurd h (by simp [default, instInhabitedENode, instInhabitedENode.default])

end JH.Eng
