import Verif.Lemmas.EngInv

/-! The start and the end of a parse. -/
namespace JH.Eng

/-! ### Dropping and unwrapping -/

theorem parents_some (p : Nat) (l : List Nat) : ∀ (s : St) (j : Nat), ((s.setParents l p).n j).children = (s.n j).children ∧
    ((s.setParents l p).n j).parent = if j ∈ l ∧ j < s.heap.length then some p else (s.n j).parent := by
  induction l with
  | nil => exact fun _ _ => ⟨rfl, by simp [St.setParents]⟩
  | cons c l ih =>
    intro s j
    have e : s.setParents (c :: l) p = (s.upd c fun n => { n with parent := some p }).setParents l p := rfl
    rw [e]
    refine ⟨(ih _ j).1.trans (kids_upd _ _ _ (fun n => { n with parent := some p }) fun _ => rfl), ?_⟩
    rw [(ih _ j).2, len_upd, n_upd]
    by_cases h1 : j ∈ l ∧ j < s.heap.length
    · rw [if_pos h1, if_pos ⟨by simp [h1.1], h1.2⟩]
    · rw [if_neg h1]
      by_cases h2 : c = j ∧ c < s.heap.length
      · rw [if_pos h2, if_pos ⟨by simp [h2.1], h2.1 ▸ h2.2⟩]
      · rw [if_neg h2, if_neg]
        rintro ⟨h3, h4⟩
        rcases List.mem_cons.1 h3 with h3 | h3
        · exact h2 ⟨h3.symm, h3 ▸ h4⟩
        · exact h1 ⟨h3, h4⟩

theorem mem_splice {l m : List Nat} {c y : Nat} : y ∈ (l.flatMap fun x => if x = c then m else [x]) ↔ (y ∈ l ∧ y ≠ c) ∨ (c ∈ l ∧ y ∈ m) := by
  rw [List.mem_flatMap]
  constructor
  · rintro ⟨x, hx, hy⟩
    by_cases hxc : x = c
    · rw [if_pos hxc] at hy; exact .inr ⟨hxc ▸ hx, hy⟩
    · rw [if_neg hxc] at hy
      have : y = x := by simpa using hy
      exact .inl ⟨this ▸ hx, this ▸ hxc⟩
  · rintro (⟨h1, h2⟩ | ⟨h1, h2⟩)
    · exact ⟨y, h1, by rw [if_neg h2]; simp⟩
    · exact ⟨c, h1, by rw [if_pos rfl]; exact h2⟩

theorem count_splice {m : List Nat} {c y : Nat} (h : y ≠ c) : ∀ l : List Nat, (l.flatMap fun x => if x = c then m else [x]).count y = l.count y + l.count c * m.count y := by
  intro l
  induction l with
  | nil => simp
  | cons x l ih =>
    rw [List.flatMap_cons, List.count_append, ih]
    by_cases hx : x = c
    · subst hx
      rw [if_pos rfl, List.count_cons_self, List.count_cons_of_ne (fun e => h e.symm), Nat.add_mul]
      omega
    · rw [if_neg hx, List.count_cons_of_ne (a := c) (b := x) hx, List.count_cons]
      simp only [List.count_cons, List.count_nil]
      omega

/-- The children of `i` take its place. -/
def St.unwrapAt (s : St) (p i : Nat) : St :=
  (((s.upd i fun n => { n with children := [] }).setParents (s.n i).children p).splice p i (s.n i).children).upd i fun n => { n with parent := none }

theorem n_unwrapAt (s : St) {p i : Nat} (hi : i < s.heap.length) (hp : p < s.heap.length) (j : Nat) :
    ((s.unwrapAt p i).n j).children =
      (if j = i then [] else if j = p then (s.n p).children.flatMap (fun x => if x = i then (s.n i).children else [x]) else (s.n j).children) ∧
    ((s.unwrapAt p i).n j).parent = if j = i then none else if j ∈ (s.n i).children ∧ j < s.heap.length then some p else (s.n j).parent := by
  have h0 : (s.upd i fun n => { n with children := [] }).heap.length = s.heap.length := len_upd _ _ _
  have h1 : ((s.upd i fun n => { n with children := [] }).setParents (s.n i).children p).heap.length = s.heap.length := (len_of_heads (heads_setParents _ _ _)).trans h0
  have h2 : (((s.upd i fun n => { n with children := [] }).setParents (s.n i).children p).splice p i (s.n i).children).heap.length = s.heap.length := (len_upd _ _ _).trans h1
  have hk := parents_some p (s.n i).children (s.upd i fun n => { n with children := [] })
  have k1 : ∀ j, (((s.upd i fun n => { n with children := [] }).setParents (s.n i).children p).n j).children = if j = i then [] else (s.n j).children := by
    intro j
    rw [(hk j).1, n_upd]
    by_cases hj : j = i
    · subst hj; rw [if_pos ⟨rfl, hi⟩, if_pos rfl]
    · rw [if_neg fun e => hj e.1.symm, if_neg hj]
  constructor
  · unfold St.unwrapAt
    rw [kids_upd _ _ _ (fun n => { n with parent := none }) fun _ => rfl]
    unfold St.splice
    rw [n_upd, h1]
    by_cases hj : p = j
    · subst hj
      rw [if_pos ⟨rfl, hp⟩]
      simp only
      rw [k1]
      by_cases hji : p = i
      · rw [if_pos hji, if_pos hji]; rfl
      · rw [if_neg hji, if_neg hji]; simp
    · rw [if_neg fun e => hj e.1, k1]
      by_cases hji : j = i
      · rw [if_pos hji, if_pos hji]
      · rw [if_neg hji, if_neg hji, if_neg fun e => hj e.symm]
  · unfold St.unwrapAt
    rw [n_upd, h2]
    by_cases hj : j = i
    · subst hj; rw [if_pos ⟨rfl, hi⟩, if_pos rfl]
    · rw [if_neg fun e => hj e.1.symm, if_neg hj]
      unfold St.splice
      rw [parent_upd _ _ _ (fun n => { n with children := n.children.flatMap fun x => if x = i then (s.n i).children else [x] }) fun _ => rfl, (hk j).2, h0,
        parent_upd _ _ _ (fun n => { n with children := [] }) fun _ => rfl]

theorem heads_unwrapAt (s : St) (p i : Nat) : (s.unwrapAt p i).heads = s.heads :=
  heads_upd' _ _ (fun _ => rfl) ((heads_splice _ _ _ _).trans ((heads_setParents _ _ _).trans (heads_upd _ _ _ fun _ => rfl)))

theorem Kids.unwrap {L R : Nat → Prop} {s : St} (h : Kids L R s) {p i : Nat} (hL : L i) (hR : R i) (hi : i < s.heap.length) (hpar : (s.n i).parent = some p)
    (hmem : i ∈ (s.n p).children) :
    Kids L R (s.unwrapAt p i) ∧ Loose L (s.unwrapAt p i) i ∧ ∀ x, Loose L s x → Loose L (s.unwrapAt p i) x := by
  have hp := mem_lt hmem
  have hn := n_unwrapAt s hi hp
  have hh := heads_unwrapAt s p i
  have hself : ∀ x, x ∈ (s.n i).children → x = i → p = i := by
    intro x hx e
    subst e
    have := ((h x hL x hx).2.2 hR).1
    rw [hpar] at this
    simpa using this
  refine ⟨fun j hj x hx => ?_, fun j hj hx => ?_, fun x hlx j hj hx => ?_⟩
  · rw [len_of_heads hh, (ns_of_heads hh x).1]
    rw [(hn j).1] at hx ⊢
    rw [(hn x).2]
    by_cases hji : j = i
    · rw [if_pos hji] at hx; exact absurd hx (by simp)
    · rw [if_neg hji] at hx ⊢
      by_cases hjp : j = p
      · subst hjp
        rw [if_pos rfl] at hx ⊢
        rcases mem_splice.1 hx with ⟨h1, h2⟩ | ⟨_, h2⟩
        · obtain ⟨a, b, d⟩ := h j hj x h1
          refine ⟨a, b, fun hRx => ?_⟩
          have hnm : x ∉ (s.n i).children := fun k => hji (h.unique hj hL hRx h1 k)
          rw [if_neg h2, if_neg fun k => hnm k.1, count_splice h2, List.count_eq_zero_of_not_mem hnm]
          simpa using d hRx
        · obtain ⟨a, b, d⟩ := h i hL x h2
          refine ⟨a, b, fun hRx => ?_⟩
          have hxi : x ≠ i := fun e => hji (hself x h2 e)
          have hnm : x ∉ (s.n j).children := fun k => hji (h.unique hj hL hRx k h2)
          rw [if_neg hxi, if_pos ⟨h2, a⟩, count_splice hxi, List.count_eq_zero_of_not_mem hnm, (d hRx).2, ((h j hj i hmem).2.2 hR).2]
          exact ⟨rfl, rfl⟩
      · rw [if_neg hjp] at hx ⊢
        obtain ⟨a, b, d⟩ := h j hj x hx
        refine ⟨a, b, fun hRx => ?_⟩
        have hnm : x ∉ (s.n i).children := fun k => hji (h.unique hj hL hRx hx k)
        have hxi : x ≠ i := by
          intro e
          subst e
          have := (d hRx).1
          rw [hpar] at this
          exact hjp (by simpa using this.symm)
        rw [if_neg hxi, if_neg fun k => hnm k.1]
        exact d hRx
  · rw [(hn j).1] at hx
    by_cases hji : j = i
    · rw [if_pos hji] at hx; exact absurd hx (by simp)
    · rw [if_neg hji] at hx
      by_cases hjp : j = p
      · rw [if_pos hjp] at hx
        rcases mem_splice.1 hx with ⟨_, h2⟩ | ⟨_, h2⟩
        · exact h2 rfl
        · exact hji (hjp.trans (hself i h2 rfl))
      · rw [if_neg hjp] at hx
        have := ((h j hj i hx).2.2 hR).1
        rw [hpar] at this
        exact hjp (by simpa using this.symm)
  · rw [(hn j).1] at hx
    by_cases hji : j = i
    · rw [if_pos hji] at hx; exact absurd hx (by simp)
    · rw [if_neg hji] at hx
      by_cases hjp : j = p
      · subst hjp
        rw [if_pos rfl] at hx
        rcases mem_splice.1 hx with ⟨h1, _⟩ | ⟨_, h2⟩
        · exact hlx j hj h1
        · exact hlx i hL h2
      · rw [if_neg hjp] at hx
        exact hlx j hj hx

/-- A node that only the root has as child stays so, unless the root goes. -/
def Top (s0 s : St) : Prop := ∀ c, ¬ Rec s0 s0.doc → (∀ p, (s0.n p).ns ≠ poNs → c ∈ (s0.n p).children → p = s0.doc) →
  ∀ p, (s0.n p).ns ≠ poNs → c ∈ (s.n p).children → p = s0.doc

theorem Top.less {s0 s t : St} (h : Top s0 s) (k : ∀ p, ∀ c ∈ (t.n p).children, c ∈ (s.n p).children) : Top s0 t :=
  fun c hd h0 p hp hc => h c hd h0 p hp (k p c hc)

theorem kids_two_less (s : St) (p i q : Nat) : ∀ c ∈ ((((s.upd p fun n => { n with children := n.children.erase i }).upd i fun n => { n with parent := none }).n q).children), c ∈ (s.n q).children := by
  intro c hc
  rw [kids_upd _ _ _ (fun n => { n with parent := none }) fun _ => rfl, n_upd] at hc
  split at hc
  · next h => exact h.1 ▸ List.mem_of_mem_erase hc
  · exact hc

/-- What is known while the recorded nodes are removed. `D` are those that already are. -/
structure Fin (s0 : St) (D : Nat → Prop) (s : St) : Prop where
  heads : s.heads = s0.heads
  frame : s.doc = s0.doc ∧ s.toDrop = s0.toDrop ∧ s.toUnwrap = s0.toUnwrap ∧ s.ctxNode = s0.ctxNode
  cont : ∀ i, (s.n i).content = (s0.n i).content
  kids : Kids (fun i => (s0.n i).ns ≠ poNs) (Rec s0) s
  done : ∀ i, D i → Loose (fun i => (s0.n i).ns ≠ poNs) s i
  top : Top s0 s

theorem Kids.noParent {L R : Nat → Prop} {s : St} (h : Kids L R s) {c : Nat} (hR : R c) (hp : (s.n c).parent = none) : Loose L s c := by
  intro j hj hx
  have := ((h j hj c hx).2.2 hR).1
  rw [hp] at this
  exact absurd this (by simp)

theorem Kids.notThere {L R : Nat → Prop} {s : St} (h : Kids L R s) {c p : Nat} (hR : R c) (hp : (s.n c).parent = some p) (hc : c ∉ (s.n p).children) : Loose L s c := by
  intro j hj hx
  have := ((h j hj c hx).2.2 hR).1
  rw [hp] at this
  have : p = j := by simpa using this
  exact hc (this ▸ hx)

theorem dropOne_eq (i : Nat) (C : Cfg) (s : St) : (dropOne i C s).2 =
    match (s.n i).parent with
    | none => s
    | some p => if (s.n p).children.contains i then (s.upd p fun n => { n with children := n.children.erase i }).upd i fun n => { n with parent := none }
      else (noteErr true C s).2 := by
  unfold dropOne
  rw [bind_eq]
  show (((match (s.n i).parent with
    | none => pure ()
    | some p => iteQ (fun _ s => (s.n p).children.contains i) (removeChild p i) (noteErr true)) : EM Unit) C s).2 = _
  cases h : (s.n i).parent with
  | none => rfl
  | some p =>
    simp only
    unfold iteQ
    split <;> rfl

theorem Fin.drop {s0 : St} {D : Nat → Prop} {s : St} (h : Fin s0 D s) (C : Cfg) (i : Nat) (hR : Rec s0 i) : Fin s0 (fun j => D j ∨ j = i) (dropOne i C s).2 := by
  rw [dropOne_eq]
  cases hp : (s.n i).parent with
  | none =>
    simp only
    exact ⟨h.heads, h.frame, h.cont, h.kids, fun j hj => hj.elim (h.done j) fun e => e ▸ h.kids.noParent hR hp, h.top⟩
  | some p =>
    simp only
    by_cases hc : (s.n p).children.contains i = true
    · rw [if_pos hc]
      obtain ⟨k1, k2⟩ := h.kids.remove p i none fun _ => .inl hp
      exact ⟨(heads_two s p i (fun n => { n with children := n.children.erase i }) (fun n => { n with parent := none }) (fun _ => rfl) fun _ => rfl).trans h.heads, h.frame, fun j => (content_two s p i j (fun n => { n with children := n.children.erase i }) (fun n => { n with parent := none }) (fun _ => rfl) fun _ => rfl).trans (h.cont j), k1,
        fun j hj => hj.elim (fun k => (h.done j k).remove p i none) fun e => e ▸ k2 hR, h.top.less (kids_two_less s p i)⟩
    · rw [if_neg hc]
      exact ⟨h.heads, h.frame, h.cont, h.kids.of_heap rfl, fun j hj => hj.elim (fun k => (h.done j k).of_heap rfl) fun e => e ▸ (h.kids.notThere hR hp (by simpa using hc)).of_heap rfl, h.top.less fun _ _ k => k⟩

theorem unwrapOne_eq (i : Nat) (C : Cfg) (s : St) : (unwrapOne i C s).2 =
    match (s.n i).parent with
    | none => s
    | some p => if (s.n p).children.contains i then s.unwrapAt p i else (noteErr true C s).2 := by
  unfold unwrapOne
  rw [bind_eq]
  show (((match (s.n i).parent with
    | none => pure ()
    | some p => iteQ (fun _ s => (s.n p).children.contains i)
      (modS fun s => (((s.upd i fun n => { n with children := [] }).setParents (s.n i).children p).splice p i (s.n i).children).upd i fun n => { n with parent := none }) (noteErr true)) : EM Unit) C s).2 = _
  cases h : (s.n i).parent with
  | none => rfl
  | some p =>
    simp only
    unfold iteQ
    split <;> rfl

theorem setParents_frame (l : List Nat) (p : Nat) (s : St) : ∃ k, s.setParents l p = { s with heap := k } :=
  foldl_heap (f := fun s c => s.upd c fun n => { n with parent := some p }) (fun _ _ => ⟨_, rfl⟩) l s

theorem unwrapAt_frame (s : St) (p i : Nat) : ∃ k, s.unwrapAt p i = { s with heap := k } := by
  obtain ⟨k, hk⟩ := setParents_frame (s.n i).children p (s.upd i fun n => { n with children := [] })
  unfold St.unwrapAt
  rw [hk]
  exact ⟨_, rfl⟩

theorem content_setParents (l : List Nat) (p : Nat) (s : St) (j : Nat) : ((s.setParents l p).n j).content = (s.n j).content :=
  content_foldl (f := fun s c => s.upd c fun n => { n with parent := some p }) (fun s c j => content_upd s c j _ fun _ => rfl) l s j

theorem content_splice (s : St) (p c : Nat) (l : List Nat) (j : Nat) : ((s.splice p c l).n j).content = (s.n j).content :=
  content_upd _ _ _ _ fun _ => rfl

theorem content_unwrapAt (s : St) (p i j : Nat) : ((s.unwrapAt p i).n j).content = (s.n j).content :=
  (content_upd _ _ _ (fun n => { n with parent := none }) fun _ => rfl).trans ((content_splice _ _ _ _ _).trans ((content_setParents _ _ _ _).trans
    (content_upd _ _ _ (fun n => { n with children := [] }) fun _ => rfl)))

theorem Fin.unwrap {s0 : St} {D : Nat → Prop} {s : St} (h : Fin s0 D s) (C : Cfg) (i : Nat) (hR : Rec s0 i) (hi : i < s0.heap.length) (hns : (s0.n i).ns ≠ poNs) :
    Fin s0 (fun j => D j ∨ j = i) (unwrapOne i C s).2 := by
  rw [unwrapOne_eq]
  cases hp : (s.n i).parent with
  | none =>
    simp only
    exact ⟨h.heads, h.frame, h.cont, h.kids, fun j hj => hj.elim (h.done j) fun e => e ▸ h.kids.noParent hR hp, h.top⟩
  | some p =>
    simp only
    by_cases hc : (s.n p).children.contains i = true
    · rw [if_pos hc]
      obtain ⟨k1, k2, k3⟩ := h.kids.unwrap hns hR (by rw [len_of_heads h.heads]; exact hi) hp (by simpa using hc)
      refine ⟨(heads_unwrapAt s p i).trans h.heads, ?_, fun j => (content_unwrapAt s p i j).trans (h.cont j), k1, fun j hj => hj.elim (fun k => k3 j (h.done j k)) fun e => e ▸ k2, fun c hd h0 q hq hx => ?_⟩
      · obtain ⟨k, hk⟩ := unwrapAt_frame s p i
        rw [hk]; exact h.frame
      · rw [(n_unwrapAt s (by rw [len_of_heads h.heads]; exact hi) (mem_lt (show i ∈ _ by simpa using hc)) q).1] at hx
        split at hx
        · exact absurd hx (by simp)
        · split at hx
          · next hqp =>
            rcases mem_splice.1 hx with ⟨hx, _⟩ | ⟨_, hx⟩
            · exact h.top c hd h0 q hq (hqp ▸ hx)
            · exact absurd (h.top c hd h0 i hns hx ▸ hR) hd
          · exact h.top c hd h0 q hq hx
    · rw [if_neg hc]
      exact ⟨h.heads, h.frame, h.cont, h.kids.of_heap rfl, fun j hj => hj.elim (fun k => (h.done j k).of_heap rfl) fun e => e ▸ (h.kids.notThere hR hp (by simpa using hc)).of_heap rfl, h.top.less fun _ _ k => k⟩

theorem Fin.mono {s0 : St} {D D' : Nat → Prop} {s : St} (h : Fin s0 D s) (k : ∀ i, D' i → D i) : Fin s0 D' s := ⟨h.heads, h.frame, h.cont, h.kids, fun i hi => h.done i (k i hi), h.top⟩

theorem Fin.each {s0 : St} {f : Nat → EM Unit} (C : Cfg) (P : Nat → Prop) (hf : ∀ D s i, Fin s0 D s → P i → Fin s0 (fun j => D j ∨ j = i) (f i C s).2) :
    ∀ (l : List Nat) (D : Nat → Prop) (s : St), (∀ i ∈ l, P i) → Fin s0 D s → Fin s0 (fun j => D j ∨ j ∈ l) (Eng.each f l C s).2 := by
  intro l
  induction l with
  | nil => intro D s _ h; exact h.mono fun i hi => hi.elim id fun k => absurd k (by simp)
  | cons x l ih =>
    intro D s hP h
    have h1 := ih _ _ (fun i hi => hP i (by simp [hi])) (hf D s x h (hP x (by simp)))
    refine Fin.mono (s := (Eng.each f (x :: l) C s).2) h1 fun i hi => ?_
    rcases hi with hi | hi
    · exact .inl (.inl hi)
    · rcases List.mem_cons.1 hi with hi | hi
      · exact .inl (.inr hi)
      · exact .inr hi

/-! ### The end -/

theorem finishContext_kids (C : Cfg) (s : St) (j x : Nat) (h : x ∈ ((finishContext C s).2.n j).children) :
    x ∈ (s.n j).children ∨ ∃ c, s.ctxNode = some c ∧ x ∈ (s.n c).children := by
  unfold finishContext at h
  cases hc : s.ctxNode with
  | none => rw [hc] at h; exact .inl h
  | some c =>
    rw [hc] at h
    simp only at h
    split at h
    · simp only at h
      rw [kids_upd _ _ _ (fun n => { n with parent := none }) fun _ => rfl, n_upd] at h
      split at h
      · exact absurd h (by simp)
      · unfold St.splice at h
        rw [n_upd] at h
        split at h
        · simp only at h
          rw [(parents_some _ _ _ _).1] at h
          next hd =>
          rcases mem_splice.1 h with h | h
          · exact .inl (hd.1 ▸ h.1)
          · exact .inr ⟨c, rfl, h.2⟩
        · rw [(parents_some _ _ _ _).1] at h
          exact .inl h
    · exact .inl h

/-- The context is nowhere after it is spliced. -/
theorem finishContext_gone (C : Cfg) (s : St) (c : Nat) (hc : s.ctxNode = some c) (hs : c ∉ (s.n c).children) (hd : s.doc < s.heap.length) (p : Nat)
    (hp : c ∈ (s.n p).children → p = s.doc) : c ∉ ((finishContext C s).2.n p).children := by
  unfold finishContext
  rw [hc]
  simp only
  split
  · intro h
    simp only at h
    rw [kids_upd _ _ _ (fun n => { n with parent := none }) fun _ => rfl, n_upd] at h
    split at h
    · exact absurd h (by simp)
    · unfold St.splice at h
      rw [n_upd] at h
      have hlen : (s.setParents (s.n c).children s.doc).heap.length = s.heap.length := len_of_heads (heads_setParents _ _ _)
      split at h
      · simp only at h
        rcases mem_splice.1 h with ⟨_, h⟩ | ⟨_, h⟩
        · exact h rfl
        · exact hs h
      · next hx =>
        rw [(parents_some _ _ _ _).1] at h
        exact hx ⟨(hp h).symm, by rw [hlen]; exact hd⟩
  · next h =>
    intro k
    refine h ?_
    have := hp k
    rw [this] at k
    simpa using k

theorem finishContext_frame (C : Cfg) (s : St) : (finishContext C s).2.heads = s.heads ∧ (finishContext C s).2.doc = s.doc ∧
    ∀ j, ((finishContext C s).2.n j).content = (s.n j).content := by
  unfold finishContext
  cases hc : s.ctxNode with
  | none => exact ⟨rfl, rfl, fun _ => rfl⟩
  | some c =>
    simp only
    split
    · refine ⟨heads_upd' _ _ (fun _ => rfl) (heads_upd' _ _ (fun _ => rfl) ((heads_splice _ _ _ _).trans (heads_setParents _ _ _))), ?_, fun j => ?_⟩
      · obtain ⟨k, hk⟩ := setParents_frame (s.n c).children s.doc s
        rw [hk]; rfl
      · exact (content_upd _ _ _ (fun n => { n with parent := none }) fun _ => rfl).trans ((content_upd _ _ _ (fun n => { n with children := [] }) fun _ => rfl).trans
          ((content_splice _ _ _ _ _).trans (content_setParents _ _ _ _)))
    · exact ⟨rfl, rfl, fun _ => rfl⟩

theorem finishShell_eq (C : Cfg) (s : St) : (finishShell C s).2 = s ∨
    ((finishShell C s).2 = (s.upd (s.html.getD 0) fun n => { n with children := n.children.erase s.body }).upd s.body fun n => { n with parent := none }) := by
  unfold finishShell whQ
  split
  · exact .inr rfl
  · exact .inl rfl


end JH.Eng
