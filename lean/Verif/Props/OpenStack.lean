import Verif.Model.OpenStack
/-! C41: the indexes of the stack of open elements agree with a scan. -/
namespace JH

/-- `r` is the topmost open element satisfying `p`, not counting the document at the bottom (position 0). -/
def Spec.Topmost (p : Item → Bool) (items : List Item) : Option Nat → Prop
  | some i => 0 < i ∧ (∃ it, items[i]? = some it ∧ p it = true) ∧ ∀ j, i < j → ∀ it, items[j]? = some it → p it = false
  | none => ∀ j, 0 < j → ∀ it, items[j]? = some it → p it = false

/-- What the operations do to a plain list: `none` is an exception. -/
def Spec.plainStep (l : List Item) : StackOp → Option (List Item)
  | .append it => some (l ++ [it])
  | .insert k it => some (l.take k ++ it :: l.drop k)
  | .set k it => if k < l.length then some (l.set k it) else none
  | .delAt k => if k < l.length then some (l.eraseIdx k) else none
  | .remove id => if l.any fun it => it.id = id then some (l.eraseP fun it => it.id = id) else none
  | .delSlice a b => some (l.take a ++ l.drop (max a b))
  | .reset items => some items

open Spec

/-! ### Positions -/

/-- The positions of the entries satisfying `p`. -/
def poss (p : Item → Bool) (ents : List (Nat × Item)) : List Nat := (ents.filter fun e => p e.2).map Prod.fst

theorem poss_append (p : Item → Bool) (a b : List (Nat × Item)) : poss p (a ++ b) = poss p a ++ poss p b := by simp [poss]

theorem poss_cons_true {p : Item → Bool} {it : Item} (h : p it = true) (i : Nat) (l : List (Nat × Item)) : poss p ((i, it) :: l) = i :: poss p l := by
  simp [poss, h]

theorem poss_cons_false {p : Item → Bool} {it : Item} (h : p it = false) (i : Nat) (l : List (Nat × Item)) : poss p ((i, it) :: l) = poss p l := by
  simp [poss, h]

theorem mem_poss {p : Item → Bool} {ents : List (Nat × Item)} {i : Nat} : i ∈ poss p ents ↔ ∃ it, (i, it) ∈ ents ∧ p it = true := by
  simp [poss]

theorem enumF_append (i : Nat) (a b : List Item) : enumF i (a ++ b) = enumF i a ++ enumF (i + a.length) b := by
  induction a generalizing i with
  | nil => simp [enumF]
  | cons x a ih => simp [enumF, ih, Nat.add_assoc, Nat.add_comm 1]

theorem mem_enumF (i : Nat) (l : List Item) (j : Nat) (x : Item) : (j, x) ∈ enumF i l ↔ i ≤ j ∧ l[j - i]? = some x := by
  induction l generalizing i with
  | nil => simp [enumF]
  | cons y l ih =>
    simp only [enumF, List.mem_cons, Prod.mk.injEq, ih]
    constructor
    · rintro (⟨rfl, rfl⟩ | ⟨h1, h2⟩)
      · simp
      · refine ⟨by omega, ?_⟩
        rw [show j - i = (j - (i + 1)) + 1 by omega]
        simpa using h2
    · rintro ⟨h1, h2⟩
      by_cases e : j = i
      · subst e; simp at h2; exact .inl ⟨rfl, h2.symm⟩
      · refine .inr ⟨by omega, ?_⟩
        rw [show j - i = (j - (i + 1)) + 1 by omega] at h2
        simpa using h2

theorem enumF_bounds (i : Nat) (l : List Item) (e : Nat × Item) (h : e ∈ enumF i l) : i ≤ e.1 ∧ e.1 < i + l.length := by
  obtain ⟨j, x⟩ := e
  obtain ⟨h1, h2⟩ := (mem_enumF i l j x).1 h
  have := List.getElem?_eq_some_iff.1 h2
  obtain ⟨h3, -⟩ := this
  dsimp only
  omega

/-! ### The index represents a list of entries -/

/-- The lists of the index are the positions of the entries. -/
structure Rep (I : Index) (ents : List (Nat × Item)) : Prop where
  html : ∀ n, dget I.html n = poss (fun it => it.html && it.name = n) ents
  other : ∀ n, dget I.other n = poss (fun it => !it.html && it.name = n) ents
  rendered : I.rendered = poss (fun it => !it.parserOnly) ents
  foreign : I.foreign = poss Item.foreign ents
  node : ∀ id pos, I.node.lookup id = some pos ↔ ∃ it, (pos, it) ∈ ents ∧ it.id = id
  keys : (I.html.map Prod.fst).Nodup
  full : ∀ p ∈ I.html, p.2 ≠ []
  nodeKeys : (I.node.map Prod.fst).Nodup

theorem dlookup_map (d : PosDict) (n : Str) (v : List Nat) (m : Str) (h : d.any (fun p => p.1 = n) = true) :
    (d.map fun p => if p.1 = n then (n, v) else p).lookup m = if m = n then some v else d.lookup m := by
  induction d with
  | nil => simp at h
  | cons a d ih =>
    rw [List.map_cons]
    by_cases ha : a.1 = n
    · rw [if_pos ha, List.lookup, List.lookup]
      by_cases hm : m = n
      · simp [hm]
      · have h1 : (m == n) = false := by simpa using hm
        have h2 : (m == a.1) = false := by rw [ha]; exact h1
        rw [h1, h2]
        dsimp only
        by_cases hd : d.any (fun p => p.1 = n) = true
        · rw [ih hd]
        · have : (d.map fun p => if p.1 = n then (n, v) else p) = d := by
            rw [List.map_congr_left, List.map_id']
            intro p hp
            rw [if_neg]
            intro e
            apply hd
            rw [List.any_eq_true]; exact ⟨p, hp, by simpa using e⟩
          rw [this, if_neg hm]
    · rw [if_neg ha, List.lookup, List.lookup]
      by_cases hm : m = a.1
      · have h1 : (m == a.1) = true := by simpa using hm
        rw [h1]
        dsimp only
        rw [if_neg (by rw [hm]; exact ha)]
      · have h1 : (m == a.1) = false := by simpa using hm
        rw [h1]
        dsimp only
        apply ih
        simpa [ha] using h

theorem dlookup_filter (d : PosDict) (n m : Str) : (d.filter fun p => p.1 ≠ n).lookup m = if m = n then none else d.lookup m := by
  induction d with
  | nil => simp
  | cons a d ih =>
    rw [List.filter_cons]
    by_cases ha : a.1 = n
    · rw [if_neg (by simpa using ha), ih]
      by_cases hm : m = n
      · simp [hm]
      · rw [if_neg hm, if_neg hm, List.lookup]
        have h2 : (m == a.1) = false := by rw [ha]; simpa using hm
        rw [h2]
    · rw [if_pos (by simpa using ha), List.lookup, List.lookup]
      by_cases hm : m = a.1
      · have h1 : (m == a.1) = true := by simpa using hm
        rw [h1]
        dsimp only
        rw [if_neg (by rw [hm]; exact ha)]
      · have h1 : (m == a.1) = false := by simpa using hm
        rw [h1]; exact ih

theorem dlookup_append (d : PosDict) (n : Str) (v : List Nat) (m : Str) (h : d.any (fun p => p.1 = n) = false) :
    (d ++ [(n, v)]).lookup m = if m = n then some v else d.lookup m := by
  induction d with
  | nil =>
    by_cases hm : m = n
    · simp [hm]
    · have : (m == n) = false := by simpa using hm
      simp [List.lookup, this, hm]
  | cons a d ih =>
    have ha : a.1 ≠ n := by intro e; rw [List.any_cons] at h; simp [e] at h
    have hd : d.any (fun p => p.1 = n) = false := by rw [List.any_cons, Bool.or_eq_false_iff] at h; exact h.2
    rw [List.cons_append, List.lookup, List.lookup]
    by_cases hm : m = a.1
    · have h1 : (m == a.1) = true := by simpa using hm
      rw [h1]
      dsimp only
      rw [if_neg (by rw [hm]; exact ha)]
    · have h1 : (m == a.1) = false := by simpa using hm
      rw [h1]; exact ih hd

theorem dget_dput (d : PosDict) (n : Str) (v : List Nat) (m : Str) : dget (dput d n v) m = if m = n then v else dget d m := by
  unfold dget dput
  split
  · rename_i hv
    rw [dlookup_filter]
    have : v = [] := by simpa using hv
    split
    · simp [this]
    · rfl
  · split
    · rename_i h
      rw [dlookup_map _ _ _ _ h]
      split <;> rfl
    · rename_i h
      rw [dlookup_append _ _ _ _ (Bool.eq_false_iff.2 h)]
      split <;> rfl

theorem dput_keys (d : PosDict) (n : Str) (v : List Nat) (h : (d.map Prod.fst).Nodup) : ((dput d n v).map Prod.fst).Nodup := by
  unfold dput
  split
  · exact List.Nodup.sublist (List.Sublist.map _ List.filter_sublist) h
  · split
    · rw [List.map_map]
      have : d.map (Prod.fst ∘ fun p => if p.1 = n then (n, v) else p) = d.map Prod.fst := by
        apply List.map_congr_left
        intro p _
        simp only [Function.comp]
        split
        · rename_i e; exact e.symm
        · rfl
      rw [this]; exact h
    · rename_i hn
      rw [List.map_append, List.nodup_append]
      refine ⟨h, by simp, ?_⟩
      intro x hx y hy
      simp only [List.map_cons, List.map_nil, List.mem_singleton] at hy
      subst hy
      rintro rfl
      apply hn
      obtain ⟨p, hp, e⟩ := List.mem_map.1 hx
      rw [List.any_eq_true]; exact ⟨p, hp, by simpa using e⟩

theorem dput_full (d : PosDict) (n : Str) (v : List Nat) (h : ∀ p ∈ d, p.2 ≠ []) : ∀ p ∈ dput d n v, p.2 ≠ [] := by
  unfold dput
  split
  · intro p hp; exact h p (List.mem_filter.1 hp).1
  · rename_i hv
    split
    · intro p hp
      obtain ⟨q, hq, rfl⟩ := List.mem_map.1 hp
      split
      · simpa using hv
      · exact h q hq
    · intro p hp
      rcases List.mem_append.1 hp with hp | hp
      · exact h p hp
      · rw [List.mem_singleton] at hp; subst hp; simpa using hv

theorem node_del (d : List (Nat × Nat)) (id m : Nat) : (nodeDel d id).lookup m = if m = id then none else d.lookup m := by
  unfold nodeDel
  induction d with
  | nil => simp
  | cons a d ih =>
    rw [List.filter_cons]
    by_cases ha : a.1 = id
    · rw [if_neg (by simpa using ha), ih]
      by_cases hm : m = id
      · simp [hm]
      · rw [if_neg hm, if_neg hm, List.lookup]
        have h2 : (m == a.1) = false := by rw [ha]; simpa using hm
        rw [h2]
    · rw [if_pos (by simpa using ha), List.lookup, List.lookup]
      by_cases hm : m = a.1
      · have h1 : (m == a.1) = true := by simpa using hm
        rw [h1]
        dsimp only
        rw [if_neg (by rw [hm]; exact ha)]
      · have h1 : (m == a.1) = false := by simpa using hm
        rw [h1]; exact ih

theorem node_put (d : List (Nat × Nat)) (id pos m : Nat) : (nodePut d id pos).lookup m = if m = id then some pos else d.lookup m := by
  unfold nodePut
  split
  · rename_i h
    induction d with
    | nil => simp at h
    | cons a d ih =>
      rw [List.map_cons]
      by_cases ha : a.1 = id
      · rw [if_pos ha, List.lookup, List.lookup]
        by_cases hm : m = id
        · simp [hm]
        · have h1 : (m == id) = false := by simpa using hm
          have h2 : (m == a.1) = false := by rw [ha]; exact h1
          rw [h1, h2]
          dsimp only
          by_cases hd : d.any (fun p => p.1 = id) = true
          · rw [ih hd]
          · have : (d.map fun p => if p.1 = id then (id, pos) else p) = d := by
              rw [List.map_congr_left, List.map_id']
              intro p hp
              rw [if_neg]
              intro e
              apply hd
              rw [List.any_eq_true]; exact ⟨p, hp, by simpa using e⟩
            rw [this, if_neg hm]
      · rw [if_neg ha, List.lookup, List.lookup]
        by_cases hm : m = a.1
        · have h1 : (m == a.1) = true := by simpa using hm
          rw [h1]
          dsimp only
          rw [if_neg (by rw [hm]; exact ha)]
        · have h1 : (m == a.1) = false := by simpa using hm
          rw [h1]
          dsimp only
          apply ih
          simpa [ha] using h
  · rename_i h
    induction d with
    | nil =>
      by_cases hm : m = id
      · simp [hm]
      · have : (m == id) = false := by simpa using hm
        simp [List.lookup, this, hm]
    | cons a d ih =>
      have ha : a.1 ≠ id := by intro e; apply h; rw [List.any_cons]; simp [e]
      rw [List.cons_append, List.lookup, List.lookup]
      by_cases hm : m = a.1
      · have h1 : (m == a.1) = true := by simpa using hm
        rw [h1]
        dsimp only
        rw [if_neg (by rw [hm]; exact ha)]
      · have h1 : (m == a.1) = false := by simpa using hm
        rw [h1]
        apply ih
        intro h2; apply h; rw [List.any_cons, h2, Bool.or_true]

theorem nodeDel_keys (d : List (Nat × Nat)) (id : Nat) (h : (d.map Prod.fst).Nodup) : ((nodeDel d id).map Prod.fst).Nodup :=
  List.Nodup.sublist (List.Sublist.map _ List.filter_sublist) h

theorem nodePut_keys (d : List (Nat × Nat)) (id pos : Nat) (h : (d.map Prod.fst).Nodup) : ((nodePut d id pos).map Prod.fst).Nodup := by
  unfold nodePut
  split
  · rw [List.map_map]
    have : d.map (Prod.fst ∘ fun p => if p.1 = id then (id, pos) else p) = d.map Prod.fst := by
      apply List.map_congr_left
      intro p _
      simp only [Function.comp]
      split
      · rename_i e; exact e.symm
      · rfl
    rw [this]; exact h
  · rename_i hn
    rw [List.map_append, List.nodup_append]
    refine ⟨h, by simp, ?_⟩
    intro x hx y hy
    simp only [List.map_cons, List.map_nil, List.mem_singleton] at hy
    subst hy
    rintro rfl
    apply hn
    obtain ⟨p, hp, e⟩ := List.mem_map.1 hx
    rw [List.any_eq_true]; exact ⟨p, hp, by simpa using e⟩

/-- Updating the lists of one item. -/
theorem upd_rep {I : Index} {ents ents' : List (Nat × Item)} {it : Item} {f : List Nat → Option (List Nat)} {node : List (Nat × Nat)}
    (hR : Rep I ents) (hf : ∀ p : Item → Bool, p it = true → f (poss p ents) = some (poss p ents'))
    (hk : ∀ p : Item → Bool, p it = false → poss p ents = poss p ents')
    (hn : ∀ id pos, node.lookup id = some pos ↔ ∃ it, (pos, it) ∈ ents' ∧ it.id = id) (hnk : (node.map Prod.fst).Nodup) :
    ∃ I', I.upd f it node = some I' ∧ Rep I' ents' := by
  have hr : (if it.parserOnly then some I.rendered else f I.rendered) = some (poss (fun it => !it.parserOnly) ents') := by
    rw [hR.rendered]
    split
    · rename_i h; rw [hk _ (by simp [h])]
    · rename_i h; exact hf _ (by simpa using h)
  have hg : (if it.foreign then f I.foreign else some I.foreign) = some (poss Item.foreign ents') := by
    rw [hR.foreign]
    split
    · rename_i h; exact hf _ h
    · rename_i h; rw [hk _ (by simpa using h)]
  unfold Index.upd
  rw [hr, hg]
  by_cases hh : it.html = true
  · have hb : f (dget (if it.html then I.html else I.other) it.name) = some (poss (fun x => x.html && x.name = it.name) ents') := by
      rw [if_pos hh, hR.html]; exact hf _ (by simp [hh])
    rw [hb]
    dsimp only
    refine ⟨_, rfl, ?_⟩
    simp only [hh, if_true]
    refine ⟨?_, ?_, rfl, rfl, hn, dput_keys _ _ _ hR.keys, dput_full _ _ _ hR.full, hnk⟩
    · intro n
      dsimp only
      rw [dget_dput]
      split
      · rename_i e; rw [e]
      · rename_i e; rw [hR.html]; exact hk _ (by simp [Ne.symm e])
    · intro n
      dsimp only
      rw [hR.other]; exact hk _ (by simp [hh])
  · simp only [Bool.not_eq_true] at hh
    have hb : f (dget (if it.html then I.html else I.other) it.name) = some (poss (fun x => !x.html && x.name = it.name) ents') := by
      rw [if_neg (by simp [hh]), hR.other]; exact hf _ (by simp [hh])
    rw [hb]
    dsimp only
    refine ⟨_, rfl, ?_⟩
    simp only [hh, Bool.false_eq_true, if_false]
    refine ⟨?_, ?_, rfl, rfl, hn, hR.keys, hR.full, hnk⟩
    · intro n
      dsimp only
      rw [hR.html]; exact hk _ (by simp [hh])
    · intro n
      dsimp only
      rw [dget_dput]
      split
      · rename_i e; rw [e]
      · rename_i e; rw [hR.other]; exact hk _ (by simp [Ne.symm e])

/-- Adding an entry to the node table. -/
theorem node_add {I : Index} {a b : List (Nat × Item)} (hR : Rep I (a ++ b)) (it : Item) (i : Nat) (hfresh : ∀ e ∈ a ++ b, e.2.id ≠ it.id) :
    ∀ id pos, (nodePut I.node it.id i).lookup id = some pos ↔ ∃ x, (pos, x) ∈ a ++ (i, it) :: b ∧ x.id = id := by
  intro id pos
  rw [node_put]
  split
  · rename_i e
    subst e
    simp only [Option.some.injEq]
    constructor
    · rintro rfl; exact ⟨it, by simp, rfl⟩
    · rintro ⟨x, hx, e⟩
      have : (pos, x) = (i, it) ∨ (pos, x) ∈ a ++ b := by
        rcases List.mem_append.1 hx with h | h
        · exact .inr (List.mem_append_left _ h)
        · rcases List.mem_cons.1 h with h | h
          · exact .inl h
          · exact .inr (List.mem_append_right _ h)
      rcases this with h | h
      · simp only [Prod.mk.injEq] at h; exact h.1.symm
      · exact absurd e (hfresh _ h)
  · rename_i e
    rw [hR.node]
    constructor
    · rintro ⟨x, hx, e2⟩
      refine ⟨x, ?_, e2⟩
      rcases List.mem_append.1 hx with h | h
      · exact List.mem_append_left _ h
      · exact List.mem_append_right _ (List.mem_cons_of_mem _ h)
    · rintro ⟨x, hx, e2⟩
      rcases List.mem_append.1 hx with h | h
      · exact ⟨x, List.mem_append_left _ h, e2⟩
      · rcases List.mem_cons.1 h with h | h
        · simp only [Prod.mk.injEq] at h
          rw [h.2] at e2; exact absurd e2.symm e
        · exact ⟨x, List.mem_append_right _ h, e2⟩

/-- Removing an entry from the node table. -/
theorem node_sub {I : Index} {a b : List (Nat × Item)} {it : Item} {i : Nat} (hR : Rep I (a ++ (i, it) :: b)) (hfresh : ∀ e ∈ a ++ b, e.2.id ≠ it.id) :
    ∀ id pos, (nodeDel I.node it.id).lookup id = some pos ↔ ∃ x, (pos, x) ∈ a ++ b ∧ x.id = id := by
  intro id pos
  rw [node_del]
  split
  · rename_i e
    subst e
    constructor
    · intro h; simp at h
    · rintro ⟨x, hx, e⟩; exact absurd e (hfresh _ hx)
  · rename_i e
    rw [hR.node]
    constructor
    · rintro ⟨x, hx, e2⟩
      rcases List.mem_append.1 hx with h | h
      · exact ⟨x, List.mem_append_left _ h, e2⟩
      · rcases List.mem_cons.1 h with h | h
        · simp only [Prod.mk.injEq] at h
          rw [h.2] at e2; exact absurd e2.symm e
        · exact ⟨x, List.mem_append_right _ h, e2⟩
    · rintro ⟨x, hx, e2⟩
      refine ⟨x, ?_, e2⟩
      rcases List.mem_append.1 hx with h | h
      · exact List.mem_append_left _ h
      · exact List.mem_append_right _ (List.mem_cons_of_mem _ h)

theorem noteTop_rep {I : Index} {ents : List (Nat × Item)} (hR : Rep I ents) (it : Item) (i : Nat) (hfresh : ∀ e ∈ ents, e.2.id ≠ it.id) :
    ∃ I', I.noteTop it i = some I' ∧ Rep I' (ents ++ [(i, it)]) := by
  apply upd_rep hR
  · intro p hp
    simp only [push]
    rw [poss_append, poss_cons_true hp]; rfl
  · intro p hp
    rw [poss_append, poss_cons_false hp]; simp [poss]
  · have := node_add (a := ents) (b := []) (by simpa using hR) it i (by simpa using hfresh)
    exact this
  · exact nodePut_keys _ _ _ hR.nodeKeys

theorem takeWhile_split (P : Nat → Bool) (a b : List Nat) (ha : ∀ x ∈ a, P x = true) (hb : ∀ x ∈ b, P x = false) :
    (a ++ b).takeWhile P = a ∧ (a ++ b).dropWhile P = b := by
  induction a with
  | nil =>
    cases b with
    | nil => simp
    | cons x b => simp [hb x (by simp)]
  | cons x a ih =>
    have := ih fun y hy => ha y (by simp [hy])
    have hx := ha x (by simp)
    simp [hx, this.1, this.2]

theorem noteAt_rep {I : Index} {a b : List (Nat × Item)} (hR : Rep I (a ++ b)) (it : Item) (i : Nat) (hfresh : ∀ e ∈ a ++ b, e.2.id ≠ it.id)
    (ha : ∀ e ∈ a, e.1 < i) (hb : ∀ e ∈ b, i < e.1) :
    ∃ I', I.noteAt it i = some I' ∧ Rep I' (a ++ (i, it) :: b) := by
  apply upd_rep hR
  · intro p hp
    simp only [insort]
    rw [poss_append, poss_append, poss_cons_true hp]
    have := takeWhile_split (fun x => decide (x ≤ i)) (poss p a) (poss p b)
      (by intro x hx; obtain ⟨y, hy, -⟩ := mem_poss.1 hx; have := ha _ hy; simp; dsimp only at this; omega)
      (by intro x hx; obtain ⟨y, hy, -⟩ := mem_poss.1 hx; have := hb _ hy; simp; dsimp only at this; omega)
    rw [this.1, this.2]
  · intro p hp
    rw [poss_append, poss_append, poss_cons_false hp]
  · exact node_add hR it i hfresh
  · exact nodePut_keys _ _ _ hR.nodeKeys

theorem bisect_split (a b : List Nat) (i : Nat) (ha : ∀ x ∈ a, x < i) : bisectLeft (a ++ i :: b) i = a.length := by
  unfold bisectLeft
  have : (a ++ i :: b).takeWhile (fun x => decide (x < i)) = a := by
    induction a with
    | nil => simp
    | cons x a ih =>
      have hx := ha x (by simp)
      simp [hx, ih fun y hy => ha y (by simp [hy])]
  rw [this]

theorem eraseIdx_mid {α : Type} (a b : List α) (x : α) : (a ++ x :: b).eraseIdx a.length = a ++ b := by
  induction a with
  | nil => rfl
  | cons y a ih => simp [ih]

theorem set_mid {α : Type} (a b : List α) (x y : α) : (a ++ x :: b).set a.length y = a ++ y :: b := by
  induction a with
  | nil => rfl
  | cons z a ih => simp [ih]

theorem discard_rep {I : Index} {a b : List (Nat × Item)} {it : Item} {i : Nat} (hR : Rep I (a ++ (i, it) :: b)) (hfresh : ∀ e ∈ a ++ b, e.2.id ≠ it.id)
    (ha : ∀ e ∈ a, e.1 < i) : ∃ I', I.discard it i = some I' ∧ Rep I' (a ++ b) := by
  apply upd_rep hR
  · intro p hp
    simp only [delPos]
    rw [poss_append, poss_append, poss_cons_true hp]
    have := bisect_split (poss p a) (poss p b) i (by intro x hx; obtain ⟨y, hy, -⟩ := mem_poss.1 hx; exact ha _ hy)
    rw [this, if_pos (by simp), eraseIdx_mid]
  · intro p hp
    rw [poss_append, poss_append, poss_cons_false hp]
  · exact node_sub hR hfresh
  · exact nodeDel_keys _ _ hR.nodeKeys

theorem move_rep {I : Index} {a b : List (Nat × Item)} {it : Item} {old new : Nat} (hR : Rep I (a ++ (old, it) :: b)) (hfresh : ∀ e ∈ a ++ b, e.2.id ≠ it.id)
    (ha : ∀ e ∈ a, e.1 < old) : ∃ I', I.move it old new = some I' ∧ Rep I' (a ++ (new, it) :: b) := by
  apply upd_rep hR
  · intro p hp
    simp only [movePos]
    rw [poss_append, poss_append, poss_cons_true hp, poss_cons_true hp]
    have := bisect_split (poss p a) (poss p b) old (by intro x hx; obtain ⟨y, hy, -⟩ := mem_poss.1 hx; exact ha _ hy)
    rw [this, if_pos (by simp), set_mid]
  · intro p hp
    rw [poss_append, poss_append, poss_cons_false hp, poss_cons_false hp]
  · intro id pos
    rw [node_put]
    split
    · rename_i e
      subst e
      simp only [Option.some.injEq]
      constructor
      · rintro rfl; exact ⟨it, by simp, rfl⟩
      · rintro ⟨x, hx, e⟩
        rcases List.mem_append.1 hx with h | h
        · exact absurd e (hfresh _ (List.mem_append_left _ h))
        · rcases List.mem_cons.1 h with h | h
          · simp only [Prod.mk.injEq] at h; exact h.1.symm
          · exact absurd e (hfresh _ (List.mem_append_right _ h))
    · rename_i e
      rw [hR.node]
      constructor
      · rintro ⟨x, hx, e2⟩
        refine ⟨x, ?_, e2⟩
        rcases List.mem_append.1 hx with h | h
        · exact List.mem_append_left _ h
        · rcases List.mem_cons.1 h with h | h
          · simp only [Prod.mk.injEq] at h; rw [h.2] at e2; exact absurd e2.symm e
          · exact List.mem_append_right _ (List.mem_cons_of_mem _ h)
      · rintro ⟨x, hx, e2⟩
        refine ⟨x, ?_, e2⟩
        rcases List.mem_append.1 hx with h | h
        · exact List.mem_append_left _ h
        · rcases List.mem_cons.1 h with h | h
          · simp only [Prod.mk.injEq] at h; rw [h.2] at e2; exact absurd e2.symm e
          · exact List.mem_append_right _ (List.mem_cons_of_mem _ h)
  · exact nodePut_keys _ _ _ hR.nodeKeys

theorem poss_snoc_last {p : Item → Bool} {a : List (Nat × Item)} {i : Nat} {it : Item} (hp : p it = true) :
    popLast (poss p (a ++ [(i, it)])) = some (poss p a) := by
  rw [poss_append, poss_cons_true hp]
  unfold popLast
  rw [if_neg (by simp)]
  simp [poss]

theorem forgetTop_rep {I : Index} {a : List (Nat × Item)} {it : Item} {i : Nat} (hR : Rep I (a ++ [(i, it)])) (hfresh : ∀ e ∈ a, e.2.id ≠ it.id)
    (ha : ∀ e ∈ a, e.1 < i) : ∃ I', I.forgetTop it i = some I' ∧ Rep I' a := by
  have same : ∀ p : Item → Bool, p it = false → poss p (a ++ [(i, it)]) = poss p a := by
    intro p hp; rw [poss_append, poss_cons_false hp]; simp [poss]
  have hr : (if it.parserOnly then some I.rendered else popLast I.rendered) = some (poss (fun it => !it.parserOnly) a) := by
    rw [hR.rendered]
    split
    · rename_i h; rw [same _ (by simp [h])]
    · rename_i h; exact poss_snoc_last (by simpa using h)
  have hg : (if I.foreign.getLast? = some i then I.foreign.dropLast else I.foreign) = poss Item.foreign a := by
    rw [hR.foreign]
    cases hf : it.foreign with
    | true =>
      rw [poss_append, poss_cons_true hf]
      simp [poss]
    | false =>
      rw [same _ hf, if_neg]
      intro h
      obtain ⟨x, hx, -⟩ := mem_poss.1 (List.mem_of_getLast? h)
      have := ha _ hx
      simp at this
  have hn := node_sub (a := a) (b := []) hR (by simpa using hfresh)
  rw [List.append_nil] at hn
  have hnk := nodeDel_keys _ it.id hR.nodeKeys
  unfold Index.forgetTop
  rw [hr]
  by_cases hh : it.html = true
  · have hb : popLast (dget (if it.html then I.html else I.other) it.name) = some (poss (fun x => x.html && x.name = it.name) a) := by
      rw [if_pos hh, hR.html]; exact poss_snoc_last (by simp [hh])
    rw [hb]
    dsimp only
    refine ⟨_, rfl, ?_⟩
    simp only [hh, if_true]
    refine ⟨?_, ?_, rfl, hg, hn, dput_keys _ _ _ hR.keys, dput_full _ _ _ hR.full, hnk⟩
    · intro n
      dsimp only
      rw [dget_dput]
      split
      · rename_i e; rw [e]
      · rename_i e; rw [hR.html]; exact same _ (by simp [Ne.symm e])
    · intro n
      dsimp only
      rw [hR.other]; exact same _ (by simp [hh])
  · simp only [Bool.not_eq_true] at hh
    have hb : popLast (dget (if it.html then I.html else I.other) it.name) = some (poss (fun x => !x.html && x.name = it.name) a) := by
      rw [if_neg (by simp [hh]), hR.other]; exact poss_snoc_last (by simp [hh])
    rw [hb]
    dsimp only
    refine ⟨_, rfl, ?_⟩
    simp only [hh, Bool.false_eq_true, if_false]
    refine ⟨?_, ?_, rfl, hg, hn, hR.keys, hR.full, hnk⟩
    · intro n
      dsimp only
      rw [hR.html]; exact same _ (by simp [hh])
    · intro n
      dsimp only
      rw [dget_dput]
      split
      · rename_i e; rw [e]
      · rename_i e; rw [hR.other]; exact same _ (by simp [Ne.symm e])

/-! ### Histories -/

/-- The ids of a list of items are distinct. -/
def Distinct (items : List Item) : Prop := (items.map Item.id).Nodup

theorem rep_empty : Rep {} [] := by
  refine ⟨?_, ?_, rfl, rfl, ?_, by simp, by simp, by simp⟩ <;> intros <;> simp [dget, poss]

theorem distinct_fresh {a b : List Item} {x : Item} (h : Distinct (a ++ x :: b)) : ∀ y ∈ a ++ b, y.id ≠ x.id := by
  intro y hy e
  unfold Distinct at h
  rw [List.map_append, List.map_cons, List.nodup_append, List.nodup_cons] at h
  rcases List.mem_append.1 hy with h1 | h1
  · exact h.2.2 _ (List.mem_map.2 ⟨y, h1, rfl⟩) x.id (by simp) e
  · exact h.2.1.1 (List.mem_map.2 ⟨y, h1, e⟩)

theorem enum_snd {i : Nat} {l : List Item} {e : Nat × Item} (h : e ∈ enumF i l) : e.2 ∈ l := by
  obtain ⟨j, x⟩ := e
  obtain ⟨-, h2⟩ := (mem_enumF i l j x).1 h
  exact List.mem_of_getElem? h2

theorem enum_fresh {i j : Nat} {a b : List Item} {x : Item} (h : Distinct (a ++ x :: b)) : ∀ e ∈ enumF i a ++ enumF j b, e.2.id ≠ x.id := by
  intro e he
  apply distinct_fresh h
  rcases List.mem_append.1 he with h | h
  · exact List.mem_append_left _ (enum_snd h)
  · exact List.mem_append_right _ (enum_snd h)

theorem build_loop : ∀ (b a : List Item) (I : Index), Rep I (enumF 0 a) → Distinct (a ++ b) →
    ∃ I', (enumF a.length b).foldlM (fun (I : Index) p => I.noteTop p.2 p.1) I = some I' ∧ Rep I' (enumF 0 (a ++ b)) := by
  intro b
  induction b with
  | nil => intro a I h _; exact ⟨I, rfl, by simpa using h⟩
  | cons x b ih =>
    intro a I h hd
    have hf : ∀ e ∈ enumF 0 a, e.2.id ≠ x.id := fun e he => enum_fresh (i := 0) (j := 0) hd e (List.mem_append_left _ he)
    obtain ⟨I1, h1, h2⟩ := noteTop_rep h x a.length hf
    have h2' : Rep I1 (enumF 0 (a ++ [x])) := by rw [enumF_append]; simpa [enumF] using h2
    obtain ⟨I2, h3, h4⟩ := ih (a ++ [x]) I1 h2' (by simpa using hd)
    refine ⟨I2, ?_, by simpa using h4⟩
    simp only [enumF, List.foldlM_cons, h1]
    simpa using h3

theorem build_rep (items : List Item) (h : Distinct items) : Rep (Index.build items) (enumF 0 items) := by
  obtain ⟨I, h1, h2⟩ := build_loop items [] {} rep_empty (by simpa using h)
  unfold Index.build
  simp only [List.length_nil] at h1
  rw [h1]
  simpa using h2

theorem snoc_ind {α : Type} {P : List α → Prop} (h0 : P []) (h1 : ∀ l x, P l → P (l ++ [x])) (l : List α) : P l := by
  rw [← List.reverse_reverse l]
  induction l.reverse with
  | nil => exact h0
  | cons x l ih => rw [List.reverse_cons]; exact h1 _ _ ih

theorem renumberUp_rep (a : List Item) (x : Item) : ∀ (b : List Item) (tail : List (Nat × Item)) (I : Index),
    Rep I (enumF 0 a ++ enumF a.length b ++ tail) → (∀ e ∈ tail, ∀ y ∈ a ++ b, y.id ≠ e.2.id) → Distinct (a ++ b) →
    ∃ I', (enumF (a.length + 1) b).reverse.foldlM (fun (I : Index) p => I.move p.2 (p.1 - 1) p.1) I = some I' ∧
      Rep I' (enumF 0 a ++ enumF (a.length + 1) b ++ tail) := by
  refine snoc_ind ?_ ?_
  · intro tail I h _ _; exact ⟨I, rfl, h⟩
  · intro b y ih
    intro tail I h ht hd
    have hk : enumF (a.length + 1) (b ++ [y]) = enumF (a.length + 1) b ++ [(a.length + 1 + b.length, y)] := by
      rw [enumF_append]; rfl
    have hk0 : enumF a.length (b ++ [y]) = enumF a.length b ++ [(a.length + b.length, y)] := by
      rw [enumF_append]; rfl
    rw [hk0] at h
    have h' : Rep I ((enumF 0 a ++ enumF a.length b) ++ (a.length + b.length, y) :: tail) := by simpa using h
    have hd2 : Distinct ((a ++ b) ++ y :: []) := by simpa using hd
    have hfr : ∀ e ∈ (enumF 0 a ++ enumF a.length b) ++ tail, e.2.id ≠ y.id := by
      intro e he
      rcases List.mem_append.1 he with he | he
      · have := distinct_fresh hd2 e.2 (by
          rcases List.mem_append.1 he with he | he
          · simp [enum_snd he]
          · simp [enum_snd he])
        exact this
      · exact fun e2 => ht e he y (by simp) e2.symm
    have hlt : ∀ e ∈ enumF 0 a ++ enumF a.length b, e.1 < a.length + b.length := by
      intro e he
      rcases List.mem_append.1 he with he | he
      · have := enumF_bounds 0 a e he; omega
      · have := enumF_bounds _ b e he; omega
    obtain ⟨I1, h1, h2⟩ := move_rep (new := a.length + 1 + b.length) h' hfr hlt
    obtain ⟨I2, h3, h4⟩ := ih ((a.length + 1 + b.length, y) :: tail) I1 (by simpa using h2)
      (by
        intro e he z hz
        rcases List.mem_cons.1 he with rfl | he
        · exact distinct_fresh hd2 z (by simpa using hz)
        · exact ht e he z (by
            rcases List.mem_append.1 hz with hz | hz
            · simp [hz]
            · simp [hz]))
      (by
        unfold Distinct at hd ⊢
        rw [← List.append_assoc, List.map_append] at hd
        exact (List.nodup_append.1 hd).1)
    refine ⟨I2, ?_, ?_⟩
    · rw [hk, List.reverse_append, List.reverse_singleton, List.singleton_append, List.foldlM_cons]
      dsimp only
      rw [show a.length + 1 + b.length - 1 = a.length + b.length by omega, h1]
      exact h3
    · rw [hk]; simpa using h4

theorem renumberDown_rep : ∀ (b a : List Item) (I : Index), Rep I (enumF 0 a ++ enumF (a.length + 1) b) → Distinct (a ++ b) →
    ∃ I', (enumF a.length b).foldlM (fun (I : Index) p => I.move p.2 (p.1 + 1) p.1) I = some I' ∧ Rep I' (enumF 0 (a ++ b)) := by
  intro b
  induction b with
  | nil => intro a I h _; exact ⟨I, rfl, by simpa [enumF] using h⟩
  | cons y b ih =>
    intro a I h hd
    simp only [enumF] at h
    obtain ⟨I1, h1, h2⟩ := move_rep (new := a.length) h (enum_fresh hd) (by
      intro e he; have := enumF_bounds 0 a e he; omega)
    have h2' : Rep I1 (enumF 0 (a ++ [y]) ++ enumF ((a ++ [y]).length + 1) b) := by
      rw [enumF_append]; simpa [enumF] using h2
    obtain ⟨I2, h3, h4⟩ := ih (a ++ [y]) I1 h2' (by simpa using hd)
    refine ⟨I2, ?_, by simpa using h4⟩
    simp only [enumF, List.foldlM_cons, h1]
    simpa using h3

/-- The invariant of the stack. -/
structure Good (s : CStack) : Prop where
  distinct : Distinct s.items
  p : s.pCount = pSum s.items
  rep : s.indexed = true → Rep s.index (enumF 0 s.items)
  small : s.indexed = false → s.items.length < stackThreshold

theorem pSum_append (a b : List Item) : pSum (a ++ b) = pSum a + pSum b := by
  induction a with
  | nil => simp [pSum]
  | cons x a ih => simp [pSum, ih]; omega

/-- A node that is put on the stack is not on it already. -/
def Spec.Fresh (l : List Item) : StackOp → Prop
  | .append it => ∀ y ∈ l, y.id ≠ it.id
  | .insert _ it => ∀ y ∈ l, y.id ≠ it.id
  | .set k it => ∀ y ∈ l.eraseIdx k, y.id ≠ it.id
  | .reset items => (items.map Item.id).Nodup
  | _ => True

theorem init_good (items : List Item) (h : Distinct items) : Good (CStack.init items) ∧ (CStack.init items).items = items := by
  unfold CStack.init
  split
  · rename_i hl; exact ⟨⟨h, rfl, by simp, fun _ => hl⟩, rfl⟩
  · exact ⟨⟨h, rfl, fun _ => build_rep items h, by simp⟩, rfl⟩

theorem split_at {l : List Item} {k : Nat} {x : Item} (h : l[k]? = some x) : ∃ a b, l = a ++ x :: b ∧ a.length = k := by
  obtain ⟨h1, h2⟩ := List.getElem?_eq_some_iff.1 h
  refine ⟨l.take k, l.drop (k + 1), ?_, by simp; omega⟩
  rw [← h2, List.getElem_cons_drop, List.take_append_drop]

theorem distinct_insert {a b : List Item} {x : Item} (h : Distinct (a ++ b)) (hf : ∀ y ∈ a ++ b, y.id ≠ x.id) : Distinct (a ++ x :: b) := by
  unfold Distinct at h ⊢
  rw [List.map_append] at h
  rw [List.map_append, List.map_cons, List.nodup_append, List.nodup_cons]
  rw [List.nodup_append] at h
  refine ⟨h.1, ⟨?_, h.2.1⟩, ?_⟩
  · intro hm
    obtain ⟨y, hy, e⟩ := List.mem_map.1 hm
    exact hf y (List.mem_append_right _ hy) e
  · intro u hu v hv
    rcases List.mem_cons.1 hv with rfl | hv
    · obtain ⟨y, hy, e⟩ := List.mem_map.1 hu
      rw [← e]; exact hf y (List.mem_append_left _ hy)
    · exact h.2.2 u hu v hv

theorem distinct_remove {a b : List Item} {x : Item} (h : Distinct (a ++ x :: b)) : Distinct (a ++ b) := by
  unfold Distinct at h ⊢
  apply List.Nodup.sublist _ h
  apply List.Sublist.map
  exact List.Sublist.append (List.Sublist.refl _) (List.sublist_cons_self _ _)

theorem append_good {s : CStack} (h : Good s) (it : Item) (hf : ∀ y ∈ s.items, y.id ≠ it.id) :
    ∃ s', s.append it = some s' ∧ s'.items = s.items ++ [it] ∧ Good s' := by
  have hd : Distinct (s.items ++ [it]) := distinct_insert (a := s.items) (b := []) (by simpa using h.distinct) (by simpa using hf)
  have hp : s.pCount + isP it = pSum (s.items ++ [it]) := by rw [pSum_append, h.p]; simp [pSum]
  unfold CStack.append
  dsimp only
  by_cases hi : s.indexed = true
  · rw [if_pos hi]
    obtain ⟨I', h1, h2⟩ := noteTop_rep (h.rep hi) it s.items.length (fun e he => hf _ (enum_snd he))
    rw [h1]
    refine ⟨_, rfl, rfl, hd, hp, fun _ => ?_, by simp⟩
    rw [enumF_append]; simpa [enumF] using h2
  · rw [if_neg hi]
    split
    · exact ⟨_, rfl, rfl, hd, hp, fun _ => build_rep _ hd, by simp⟩
    · rename_i hl; exact ⟨_, rfl, rfl, hd, hp, by simp, fun _ => by simpa using hl⟩

theorem insert_good {s : CStack} (h : Good s) (k : Nat) (it : Item) (hf : ∀ y ∈ s.items, y.id ≠ it.id) :
    ∃ s', s.insert k it = some s' ∧ s'.items = s.items.take k ++ it :: s.items.drop k ∧ Good s' := by
  have hmin : s.items.take (min k s.items.length) = s.items.take k ∧ s.items.drop (min k s.items.length) = s.items.drop k := by
    rcases Nat.le_total k s.items.length with hk | hk
    · rw [Nat.min_eq_left hk]; simp
    · rw [Nat.min_eq_right hk]; simp [List.take_of_length_le hk, List.drop_of_length_le hk]
  generalize ha : s.items.take k = a at hmin ⊢
  generalize hb : s.items.drop k = b at hmin ⊢
  have hab : s.items = a ++ b := by rw [← ha, ← hb, List.take_append_drop]
  have hn : min k s.items.length = a.length := by rw [← ha, List.length_take]
  have hd : Distinct (a ++ it :: b) := distinct_insert (by rw [← hab]; exact h.distinct) (by rw [← hab]; exact hf)
  have hp : s.pCount + isP it = pSum (a ++ it :: b) := by
    rw [h.p, hab, pSum_append, pSum_append]; simp [pSum]; omega
  unfold CStack.insert
  dsimp only
  rw [hmin.1, hmin.2, hn]
  by_cases hi : s.indexed = true
  · rw [if_neg (by simp [hi]), if_pos hi]
    have hrep := h.rep hi
    rw [hab, enumF_append, Nat.zero_add] at hrep
    split
    · rename_i hl
      have : b = [] := by rw [hab] at hl; simpa using hl
      subst this
      obtain ⟨I', h1, h2⟩ := noteTop_rep (h.rep hi) it a.length (fun e he => hf _ (enum_snd he))
      rw [h1]
      refine ⟨_, rfl, rfl, hd, hp, fun _ => ?_, by simp⟩
      dsimp only
      rw [hab] at h2
      rw [enumF_append]
      simpa [enumF] using h2
    · obtain ⟨I1, h1, h2⟩ := renumberUp_rep a it b [] s.index (by simpa using hrep) (by simp) (by rw [← hab]; exact h.distinct)
      have hdrop : (a ++ it :: b).drop (a.length + 1) = b := by simp [List.drop_append]
      unfold Index.renumberUp
      rw [hdrop, h1]
      rw [List.append_nil] at h2
      obtain ⟨I2, h3, h4⟩ := noteAt_rep h2 it a.length (enum_fresh hd)
        (by intro e he; have := enumF_bounds 0 a e he; omega) (by intro e he; have := enumF_bounds _ b e he; omega)
      rw [Option.bind_some, h3]
      refine ⟨_, rfl, rfl, hd, hp, fun _ => ?_, by simp⟩
      dsimp only
      rw [enumF_append]
      simpa [enumF] using h4
  · simp only [Bool.not_eq_true] at hi
    split
    · exact ⟨_, rfl, rfl, hd, hp, fun _ => build_rep _ hd, by simp⟩
    · rename_i hl
      rw [if_neg (by simp [hi])]
      refine ⟨_, rfl, rfl, hd, hp, by simp, fun _ => ?_⟩
      simp only [hi, Bool.not_false, Bool.true_and, decide_eq_true_eq] at hl
      dsimp only; omega

theorem set_good {s : CStack} (h : Good s) (k : Nat) (it : Item) (hf : ∀ y ∈ s.items.eraseIdx k, y.id ≠ it.id) (hk : k < s.items.length) :
    ∃ s', s.set k it = some s' ∧ s'.items = s.items.set k it ∧ Good s' := by
  obtain ⟨prev, hprev⟩ : ∃ x, s.items[k]? = some x := ⟨_, List.getElem?_eq_getElem hk⟩
  obtain ⟨a, b, hab, rfl⟩ := split_at hprev
  rw [hab, eraseIdx_mid] at hf
  have hset : s.items.set a.length it = a ++ it :: b := by rw [hab, set_mid]
  have hd0 : Distinct (a ++ prev :: b) := hab ▸ h.distinct
  have hd : Distinct (a ++ it :: b) := distinct_insert (distinct_remove hd0) hf
  have hp : (if prev.name ≠ it.name then s.pCount - isP prev + isP it else s.pCount) = pSum (a ++ it :: b) := by
    rw [h.p, hab, pSum_append, pSum_append]
    simp only [pSum]
    split
    · omega
    · rename_i e
      have : isP prev = isP it := by unfold isP; simp only [ne_eq, Decidable.not_not] at e; rw [e]
      omega
  unfold CStack.set
  rw [hprev]
  dsimp only
  rw [hset, hp]
  by_cases hi : s.indexed = true
  · rw [if_pos hi]
    have hrep := h.rep hi
    rw [hab, enumF_append, Nat.zero_add] at hrep
    simp only [enumF] at hrep
    obtain ⟨I1, h1, h2⟩ := discard_rep hrep (enum_fresh hd0) (by intro e he; have := enumF_bounds 0 a e he; omega)
    rw [h1, Option.bind_some]
    obtain ⟨I2, h3, h4⟩ := noteAt_rep h2 it a.length (enum_fresh hd)
      (by intro e he; have := enumF_bounds 0 a e he; omega) (by intro e he; have := enumF_bounds _ b e he; omega)
    rw [h3]
    refine ⟨_, rfl, rfl, hd, rfl, fun _ => ?_, by simp⟩
    dsimp only
    rw [enumF_append]
    simpa [enumF] using h4
  · rw [if_neg hi]
    simp only [Bool.not_eq_true] at hi
    refine ⟨_, rfl, rfl, hd, rfl, by simp, fun _ => ?_⟩
    have := h.small hi
    rw [hab] at this
    simpa using this

theorem delAt_good {s : CStack} (h : Good s) (k : Nat) (hk : k < s.items.length) :
    ∃ s', s.delAt k = some s' ∧ s'.items = s.items.eraseIdx k ∧ Good s' ∧ s'.indexed = s.indexed := by
  obtain ⟨it, hit⟩ : ∃ x, s.items[k]? = some x := ⟨_, List.getElem?_eq_getElem hk⟩
  obtain ⟨a, b, hab, rfl⟩ := split_at hit
  have hdel : s.items.eraseIdx a.length = a ++ b := by rw [hab, eraseIdx_mid]
  have hd0 : Distinct (a ++ it :: b) := hab ▸ h.distinct
  have hd : Distinct (a ++ b) := distinct_remove hd0
  have hp : s.pCount - isP it = pSum (a ++ b) := by
    rw [h.p, hab, pSum_append, pSum_append]; simp [pSum]; omega
  unfold CStack.delAt
  rw [hit]
  dsimp only
  rw [hdel, hp]
  by_cases hi : s.indexed = true
  · rw [if_pos hi]
    have hrep := h.rep hi
    rw [hab, enumF_append, Nat.zero_add] at hrep
    simp only [enumF] at hrep
    have hlt : ∀ e ∈ enumF 0 a, e.1 < a.length := by intro e he; have := enumF_bounds 0 a e he; omega
    split
    · rename_i hl
      have : b = [] := by simpa using hl
      subst this
      obtain ⟨I1, h1, h2⟩ := forgetTop_rep (i := a.length) (by simpa [enumF] using hrep)
        (fun e he => enum_fresh (i := 0) (j := 0) hd0 e (List.mem_append_left _ he)) hlt
      rw [h1]
      exact ⟨_, rfl, rfl, ⟨hd, rfl, fun _ => by simpa using h2, by simp⟩, hi.symm⟩
    · obtain ⟨I1, h1, h2⟩ := discard_rep hrep (enum_fresh hd0) hlt
      rw [h1, Option.bind_some]
      unfold Index.renumberDown
      obtain ⟨I2, h3, h4⟩ := renumberDown_rep b a I1 h2 hd
      rw [show (a ++ b).drop a.length = b by simp, h3]
      exact ⟨_, rfl, rfl, ⟨hd, rfl, fun _ => h4, by simp⟩, hi.symm⟩
  · rw [if_neg hi]
    simp only [Bool.not_eq_true] at hi
    refine ⟨_, rfl, rfl, ⟨hd, rfl, by simp, fun _ => ?_⟩, hi.symm⟩
    have := h.small hi
    rw [hab] at this
    simp at this ⊢
    omega


theorem lookup_rep {I : Index} {l : List Item} (hR : Rep I (enumF 0 l)) (hd : Distinct l) (id : Nat) : I.node.lookup id = listIndex l id := by
  apply Option.ext
  intro pos
  rw [hR.node]
  unfold listIndex
  rw [List.findIdx?_eq_some_iff_getElem]
  constructor
  · rintro ⟨it, h1, h2⟩
    obtain ⟨-, h3⟩ := (mem_enumF 0 l pos it).1 h1
    obtain ⟨h4, h5⟩ := List.getElem?_eq_some_iff.1 h3
    refine ⟨h4, ?_, ?_⟩
    · simpa [← h5] using congrArg (· = id) h2
    · intro j hj
      simp only [decide_eq_true_eq]
      intro e
      have hne := List.pairwise_iff_getElem.1 (show (l.map Item.id).Pairwise (· ≠ ·) from hd) j pos (by simp at h4 ⊢; omega) (by simpa using h4) hj
      simp only [List.getElem_map] at hne
      have h5' : l[pos] = it := h5
      exact hne (by rw [e, h5', h2])
  · rintro ⟨h1, h2, -⟩
    exact ⟨l[pos], (mem_enumF 0 l pos _).2 ⟨by omega, by simp [h1]⟩, by simpa using h2⟩

theorem indexOfNode_spec {s : CStack} (h : Good s) (id : Nat) : s.indexOfNode id = listIndex s.items id := by
  unfold CStack.indexOfNode
  split
  · rename_i hi; exact lookup_rep (h.rep hi) h.distinct id
  · rfl

theorem eraseP_findIdx (p : Item → Bool) (l : List Item) (k : Nat) (h : l.findIdx? p = some k) : l.eraseP p = l.eraseIdx k := by
  induction l generalizing k with
  | nil => simp at h
  | cons x l ih =>
    rw [List.findIdx?_cons] at h
    by_cases hx : p x = true
    · rw [if_pos hx] at h
      obtain rfl : k = 0 := by simpa using h.symm
      rw [List.eraseP_cons_of_pos hx]; rfl
    · rw [if_neg hx] at h
      obtain ⟨j, hj, rfl⟩ := Option.map_eq_some_iff.1 h
      rw [List.eraseP_cons_of_neg hx, ih j hj]; rfl

theorem popN_good : ∀ (n : Nat) {s : CStack}, Good s → n ≤ s.items.length →
    ∃ s', s.popN n = some s' ∧ s'.items = s.items.take (s.items.length - n) ∧ Good s' := by
  intro n
  induction n with
  | zero => intro s h _; exact ⟨s, rfl, by simp, h⟩
  | succ n ih =>
    intro s h hn
    obtain ⟨s1, h1, h2, h3, -⟩ := delAt_good h (s.items.length - 1) (by omega)
    have hl : s1.items.length = s.items.length - 1 := by
      rw [h2, List.length_eraseIdx, if_pos (by omega)]
    obtain ⟨s2, h4, h5, h6⟩ := ih h3 (by omega)
    refine ⟨s2, ?_, ?_, h6⟩
    · simp only [CStack.popN, h1, Option.bind_some, h4]
    · rw [h5, h2, List.eraseIdx_eq_take_drop_succ, List.drop_of_length_le (by omega), List.append_nil, List.take_take]
      congr 1
      rw [List.length_take]; omega

theorem delSlice_good {s : CStack} (h : Good s) (a b : Nat) :
    ∃ s', s.delSlice a b = some s' ∧ s'.items = s.items.take a ++ s.items.drop (max a b) ∧ Good s' := by
  unfold CStack.delSlice
  dsimp only
  by_cases hc : s.indexed = true ∧ b ≥ s.items.length
  · rw [if_pos (by simpa using hc)]
    obtain ⟨s', h1, h2, h3⟩ := popN_good (s.items.length - min a s.items.length) h (by omega)
    refine ⟨s', h1, ?_, h3⟩
    rw [h2, List.drop_of_length_le (by omega), List.append_nil]
    rcases Nat.le_total a s.items.length with ha | ha
    · congr 1; omega
    · rw [List.take_of_length_le (by omega), List.take_of_length_le ha]
  · rw [if_neg (by simpa using hc)]
    have ht : s.items.take (min a s.items.length) = s.items.take a := by
      rcases Nat.le_total a s.items.length with ha | ha
      · rw [Nat.min_eq_left ha]
      · rw [Nat.min_eq_right ha, List.take_of_length_le ha, List.take_of_length_le (Nat.le_refl _)]
    have hdr : s.items.drop (max (min a s.items.length) b) = s.items.drop (max a b) := by
      rcases Nat.le_total a s.items.length with ha | ha
      · rw [Nat.min_eq_left ha]
      · rw [List.drop_of_length_le (by omega), List.drop_of_length_le (by omega)]
    rw [ht, hdr]
    have hsub : (s.items.take a ++ s.items.drop (max a b)).Sublist s.items := by
      have h1 : (s.items.take a ++ s.items.drop (max a b)).Sublist (s.items.take a ++ s.items.drop a) :=
        List.Sublist.append (List.Sublist.refl _) (by
          rw [show max a b = a + (max a b - a) by omega, ← List.drop_drop]
          exact List.drop_sublist _ _)
      rwa [List.take_append_drop] at h1
    have hd : Distinct (s.items.take a ++ s.items.drop (max a b)) := List.Nodup.sublist (List.Sublist.map _ hsub) h.distinct
    have hp : s.pCount - pSum ((s.items.take b).drop (min a s.items.length)) = pSum (s.items.take a ++ s.items.drop (max a b)) := by
      rw [h.p]
      have h1 : pSum s.items = pSum (s.items.take a) + pSum ((s.items.drop a).take (b - a)) + pSum ((s.items.drop a).drop (b - a)) := by
        rw [Int.add_assoc, ← pSum_append, List.take_append_drop, ← pSum_append, List.take_append_drop]
      have h2 : (s.items.take b).drop (min a s.items.length) = (s.items.drop a).take (b - a) := by
        rcases Nat.le_total a s.items.length with ha | ha
        · rw [Nat.min_eq_left ha, List.drop_take]
        · rw [Nat.min_eq_right ha, List.drop_of_length_le (by simp; omega), List.drop_of_length_le ha]; simp
      have h3 : (s.items.drop a).drop (b - a) = s.items.drop (max a b) := by
        rw [List.drop_drop]; congr 1; omega
      rw [h2, pSum_append, h1, h3]; omega
    refine ⟨_, rfl, rfl, hd, hp, ?_, ?_⟩
    · intro hi
      have hi : s.indexed = true := hi
      simp only [hi, if_true]
      exact build_rep _ hd
    · intro hi
      have := h.small hi
      have := hsub.length_le
      dsimp only
      omega

/-- One step keeps the invariant, and acts as on a plain list. -/
theorem step_good {s : CStack} (h : Good s) (op : StackOp) (hf : Fresh s.items op) :
    (plainStep s.items op = none ∧ s.step op = none) ∨
    ∃ s', s.step op = some s' ∧ plainStep s.items op = some s'.items ∧ Good s' := by
  cases op with
  | append it =>
    obtain ⟨s', h1, h2, h3⟩ := append_good h it hf
    exact .inr ⟨s', h1, by rw [h2]; rfl, h3⟩
  | insert k it =>
    obtain ⟨s', h1, h2, h3⟩ := insert_good h k it hf
    exact .inr ⟨s', h1, by rw [h2]; rfl, h3⟩
  | set k it =>
    by_cases hk : k < s.items.length
    · obtain ⟨s', h1, h2, h3⟩ := set_good h k it hf hk
      exact .inr ⟨s', h1, by rw [h2]; simp [plainStep, hk], h3⟩
    · refine .inl ⟨by simp [plainStep, hk], ?_⟩
      simp only [CStack.step, CStack.set, List.getElem?_eq_none (Nat.le_of_not_lt hk)]
  | delAt k =>
    by_cases hk : k < s.items.length
    · obtain ⟨s', h1, h2, h3, -⟩ := delAt_good h k hk
      exact .inr ⟨s', h1, by rw [h2]; simp [plainStep, hk], h3⟩
    · refine .inl ⟨by simp [plainStep, hk], ?_⟩
      simp only [CStack.step, CStack.delAt, List.getElem?_eq_none (Nat.le_of_not_lt hk)]
  | remove id =>
    simp only [CStack.step, CStack.remove, plainStep, indexOfNode_spec h]
    rcases hl : listIndex s.items id with _ | k
    · refine .inl ⟨?_, rfl⟩
      unfold listIndex at hl
      rw [List.findIdx?_eq_none_iff] at hl
      rw [if_neg]
      intro h2
      obtain ⟨x, hx, h3⟩ := List.any_eq_true.1 h2
      rw [hl x hx] at h3
      cases h3
    · dsimp only
      unfold listIndex at hl
      obtain ⟨hk, hk2, -⟩ := List.findIdx?_eq_some_iff_getElem.1 hl
      obtain ⟨s', h1, h2, h3, -⟩ := delAt_good h k hk
      refine .inr ⟨s', h1, ?_, h3⟩
      rw [if_pos (List.any_eq_true.2 ⟨_, List.getElem_mem hk, hk2⟩), h2, eraseP_findIdx _ _ _ hl]
  | delSlice a b =>
    obtain ⟨s', h1, h2, h3⟩ := delSlice_good h a b
    exact .inr ⟨s', h1, by rw [h2]; rfl, h3⟩
  | reset items =>
    obtain ⟨h1, h2⟩ := init_good items hf
    exact .inr ⟨_, rfl, by rw [h2]; rfl, h1⟩

/-- A history of operations from a stack state: `none` once one of them has raised. -/
def CStack.run (s : CStack) (ops : List StackOp) : Option CStack := ops.foldlM CStack.step s

/-- The same history on a plain list. -/
def Spec.plainRun (l : List Item) (ops : List StackOp) : Option (List Item) := ops.foldlM plainStep l

/-- No operation of the history pushes a node that is already on the stack. -/
def Spec.FreshRun : List Item → List StackOp → Prop
  | _, [] => True
  | l, op :: ops => Fresh l op ∧ ∀ l', plainStep l op = some l' → FreshRun l' ops

theorem run_good : ∀ (ops : List StackOp) {s : CStack}, Good s → FreshRun s.items ops →
    (plainRun s.items ops = none ∧ s.run ops = none) ∨ ∃ s', s.run ops = some s' ∧ plainRun s.items ops = some s'.items ∧ Good s' := by
  intro ops
  induction ops with
  | nil => intro s h _; exact .inr ⟨s, rfl, rfl, h⟩
  | cons op ops ih =>
    intro s h hf
    simp only [CStack.run, plainRun, List.foldlM_cons]
    rcases step_good h op hf.1 with ⟨h1, h2⟩ | ⟨s', h1, h2, h3⟩
    · rw [h1, h2]; exact .inl ⟨rfl, rfl⟩
    · rw [h1, h2]
      exact ih h3 (hf.2 _ h2)

/-! ### Queries -/

/-- The topmost element satisfying `p`, counting the bottom. -/
def Last (p : Item → Bool) (items : List Item) : Option Nat → Prop
  | some i => (∃ it, items[i]? = some it ∧ p it = true) ∧ ∀ j, i < j → ∀ it, items[j]? = some it → p it = false
  | none => ∀ j : Nat, ∀ it, items[j]? = some it → p it = false

theorem last_topmost {p : Item → Bool} {l : List Item} {r : Option Nat} (h : Last p l r) : Topmost p l (r.bind orNone) := by
  cases r with
  | none => exact fun j _ it hj => h j it hj
  | some i =>
    cases i with
    | zero => exact fun j hj it hi => h.2 j hj it hi
    | succ i => exact ⟨by omega, h⟩

theorem last_topmost' {p : Item → Bool} {l : List Item} {r : Option Nat} (h0 : ∀ it, l[0]? = some it → p it = false) (h : Last p l r) : Topmost p l r := by
  cases r with
  | none => exact fun j _ it hj => h j it hj
  | some i =>
    cases i with
    | zero => obtain ⟨⟨it, h1, h2⟩, -⟩ := h; rw [h0 it h1] at h2; cases h2
    | succ i => exact ⟨by omega, h⟩

theorem scanDown_spec (p : Item → Bool) (l : List Item) : ∀ n, (∀ j, n < j → ∀ it, l[j]? = some it → p it = false) → Topmost p l (scanDown p l n) := by
  intro n
  induction n with
  | zero => intro h; exact fun j hj it hi => h j hj it hi
  | succ n ih =>
    intro h
    rw [scanDown]
    have key : (∀ it, l[n + 1]? = some it → p it = false) → Topmost p l (scanDown p l n) := by
      intro h2
      apply ih
      intro j hj it hi
      rcases Nat.lt_or_ge (n + 1) j with h3 | h3
      · exact h j h3 it hi
      · obtain rfl : j = n + 1 := by omega
        exact h2 it hi
    rcases hx : l[n + 1]? with _ | x
    · exact key (by simp [hx])
    · dsimp only
      split
      · rename_i hp; exact ⟨by omega, ⟨x, hx, hp⟩, h⟩
      · rename_i hp; exact key (by intro it hi; rw [hx] at hi; injection hi with hi; subst hi; simpa using hp)

theorem scanTop_spec (p : Item → Bool) (s : CStack) : Topmost p s.items (scanTop p s) := by
  apply scanDown_spec
  intro j hj it hi
  obtain ⟨h, -⟩ := List.getElem?_eq_some_iff.1 hi
  omega

theorem poss_last (p : Item → Bool) (l : List Item) : Last p l (poss p (enumF 0 l)).getLast? := by
  refine snoc_ind (P := fun l => Last p l (poss p (enumF 0 l)).getLast?) ?_ ?_ l
  · intro j it h; simp at h
  · intro l x ih
    have he : poss p (enumF 0 (l ++ [x])) = poss p (enumF 0 l) ++ poss p [(l.length, x)] := by
      rw [enumF_append, poss_append]; simp [enumF]
    show Last p _ _
    rw [he]
    by_cases hx : p x = true
    · rw [poss_cons_true hx]
      simp only [poss, List.filter_nil, List.map_nil, List.getLast?_append, List.getLast?_singleton, Option.some_or]
      refine ⟨⟨x, by simp, hx⟩, ?_⟩
      intro j hj it hi
      rw [List.getElem?_eq_none (by simp; omega)] at hi
      cases hi
    · simp only [Bool.not_eq_true] at hx
      rw [poss_cons_false hx, show poss p [] = [] from rfl, List.append_nil]
      have step : ∀ (j : Nat) it, (l ++ [x])[j]? = some it → l[j]? = some it ∨ it = x := by
        intro j it hj
        rcases Nat.lt_or_ge j l.length with h1 | h1
        · rw [List.getElem?_append_left h1] at hj; exact .inl hj
        · rw [List.getElem?_append_right h1] at hj
          have := List.mem_of_getElem? hj
          exact .inr (List.mem_singleton.1 this)
      revert ih
      generalize (poss p (enumF 0 l)).getLast? = r
      intro ih
      cases r with
      | none =>
        intro j it hj
        rcases step j it hj with h | h
        · exact ih j it h
        · rw [h]; exact hx
      | some i =>
        obtain ⟨⟨it, h1, h2⟩, h3⟩ := ih
        refine ⟨⟨it, ?_, h2⟩, ?_⟩
        · obtain ⟨h4, -⟩ := List.getElem?_eq_some_iff.1 h1
          rw [List.getElem?_append_left h4]; exact h1
        · intro j hij it hj
          rcases step j it hj with h | h
          · exact h3 j hij it h
          · rw [h]; exact hx

theorem last_or {p q : Item → Bool} {l : List Item} {a b : Option Nat} (ha : Last p l a) (hb : Last q l b) :
    Last (fun it => p it || q it) l (optMax a b) := by
  have ff : ∀ it, p it = false → q it = false → (p it || q it) = false := fun it h1 h2 => by rw [h1, h2]; rfl
  have tl : ∀ it, p it = true → (p it || q it) = true := fun it h1 => by rw [h1]; rfl
  have tr : ∀ it, q it = true → (p it || q it) = true := fun it h1 => by rw [h1, Bool.or_true]
  cases a with
  | none =>
    cases b with
    | none => exact fun j it h => ff _ (ha j it h) (hb j it h)
    | some j =>
      obtain ⟨⟨it, h1, h2⟩, h3⟩ := hb
      exact ⟨⟨it, h1, tr _ h2⟩, fun k hk x hx => ff _ (ha k x hx) (h3 k hk x hx)⟩
  | some i =>
    obtain ⟨⟨it, h1, h2⟩, h3⟩ := ha
    cases b with
    | none => exact ⟨⟨it, h1, tl _ h2⟩, fun k hk x hx => ff _ (h3 k hk x hx) (hb k x hx)⟩
    | some j =>
      obtain ⟨⟨it', h1', h2'⟩, h3'⟩ := hb
      refine ⟨?_, fun k hk x hx => ff _ (h3 k (by omega) x hx) (h3' k (by omega) x hx)⟩
      rcases Nat.le_total i j with h | h
      · rw [Nat.max_eq_right h]; exact ⟨it', h1', tr _ h2'⟩
      · rw [Nat.max_eq_left h]; exact ⟨it, h1, tl _ h2⟩

theorem last_congr {p q : Item → Bool} {l : List Item} {r : Option Nat} (h : ∀ it ∈ l, p it = q it) (hl : Last p l r) : Last q l r := by
  cases r with
  | none => intro j it hj; rw [← h it (List.mem_of_getElem? hj)]; exact hl j it hj
  | some i =>
    obtain ⟨⟨it, h1, h2⟩, h3⟩ := hl
    exact ⟨⟨it, h1, by rw [← h it (List.mem_of_getElem? h1)]; exact h2⟩, fun k hk x hx => by rw [← h x (List.mem_of_getElem? hx)]; exact h3 k hk x hx⟩

theorem topmost_congr {p q : Item → Bool} {l : List Item} {r : Option Nat} (h : ∀ it ∈ l, p it = q it) (hl : Topmost p l r) : Topmost q l r := by
  cases r with
  | none => intro j hj it hi; rw [← h it (List.mem_of_getElem? hi)]; exact hl j hj it hi
  | some i =>
    obtain ⟨h0, ⟨it, h1, h2⟩, h3⟩ := hl
    exact ⟨h0, ⟨it, h1, by rw [← h it (List.mem_of_getElem? h1)]; exact h2⟩, fun k hk x hx => by rw [← h x (List.mem_of_getElem? hx)]; exact h3 k hk x hx⟩

theorem better_eq (best : Option Nat) (l : List Nat) : better best l = optMax best l.getLast? := by
  unfold better
  cases l.getLast? with
  | none => cases best <;> rfl
  | some i =>
    cases best with
    | none => rfl
    | some b =>
      dsimp only [optMax]
      split
      · congr 1; omega
      · congr 1; omega

theorem fold_last (f : Str → List Nat) (q : Str → Item → Bool) (items : List Item)
    (hf : ∀ n, Last (q n) items (f n).getLast?) : ∀ (names : List Str) (p : Item → Bool) (best : Option Nat), Last p items best →
    Last (fun it => p it || names.any fun n => q n it) items (names.foldl (fun best n => better best (f n)) best) := by
  intro names
  induction names with
  | nil => intro p best h; exact last_congr (by simp) h
  | cons n names ih =>
    intro p best h
    rw [List.foldl_cons, better_eq]
    refine last_congr ?_ (ih _ _ (last_or h (hf n)))
    intro it _
    rw [List.any_cons, Bool.or_assoc]

theorem fold_dict (items : List Item) (P : Str → Bool) : ∀ (d : PosDict) (p : Item → Bool) (best : Option Nat),
    (∀ e ∈ d, Last (fun it => it.html && it.name = e.1) items e.2.getLast?) → Last p items best →
    Last (fun it => p it || d.any fun e => P e.1 && (it.html && it.name = e.1)) items
      (d.foldl (fun best e => if P e.1 then better best e.2 else best) best) := by
  intro d
  induction d with
  | nil => intro p best _ h; exact last_congr (by simp) h
  | cons e d ih =>
    intro p best hd h
    rw [List.foldl_cons]
    by_cases hP : P e.1 = true
    · rw [if_pos hP, better_eq]
      refine last_congr ?_ (ih _ _ (fun e he => hd e (List.mem_cons_of_mem _ he)) (last_or h (hd e List.mem_cons_self)))
      intro it _
      rw [List.any_cons, Bool.or_assoc, hP, Bool.true_and]
    · rw [if_neg hP]
      refine last_congr ?_ (ih _ _ (fun e he => hd e (List.mem_cons_of_mem _ he)) h)
      intro it _
      simp only [Bool.not_eq_true] at hP
      rw [List.any_cons, hP, Bool.false_and, Bool.false_or]

theorem dict_mem {d : PosDict} (hk : (d.map Prod.fst).Nodup) {e : Str × List Nat} (he : e ∈ d) : dget d e.1 = e.2 := by
  induction d with
  | nil => cases he
  | cons a d ih =>
    unfold dget
    rw [List.map_cons, List.nodup_cons] at hk
    rcases List.mem_cons.1 he with rfl | he
    · simp [List.lookup]
    · have : (e.1 == a.1) = false := by
        rw [beq_eq_false_iff_ne]
        intro e2
        exact hk.1 (List.mem_map.2 ⟨e, he, e2⟩)
      rw [List.lookup, this]
      exact ih hk.2 he

theorem dict_has {d : PosDict} {n : Str} (h : dget d n ≠ []) : ∃ e ∈ d, e.1 = n := by
  induction d with
  | nil => exact absurd rfl h
  | cons a d ih =>
    by_cases hn : n = a.1
    · exact ⟨a, List.mem_cons_self, hn.symm⟩
    · have : (n == a.1) = false := by simpa using hn
      unfold dget at h ih
      rw [List.lookup, this] at h
      obtain ⟨e, he, e2⟩ := ih h
      exact ⟨e, List.mem_cons_of_mem _ he, e2⟩

/-- An item of the stack is in the dict under its name. -/
theorem rep_has {I : Index} {l : List Item} (hR : Rep I (enumF 0 l)) {it : Item} (hm : it ∈ l) (hh : it.html = true) : ∃ e ∈ I.html, e.1 = it.name := by
  apply dict_has
  rw [hR.html]
  obtain ⟨i, hi⟩ := List.getElem?_of_mem hm
  have : i ∈ poss (fun x => x.html && x.name = it.name) (enumF 0 l) :=
    mem_poss.2 ⟨it, (mem_enumF 0 l i it).2 ⟨by omega, by simpa using hi⟩, by simp [hh]⟩
  intro e; rw [e] at this; cases this

theorem orNone_max (a b : Option Nat) : orNone (max (a.getD 0) (b.getD 0)) = (optMax a b).bind orNone := by
  cases a <;> cases b <;> simp [optMax, orNone, Option.getD]

theorem orNone_getD (a : Option Nat) : orNone (a.getD 0) = a.bind orNone := by
  cases a <;> simp [orNone]

theorem lastWhere_spec (p q : Item → Bool) (l : List Item) : Last (fun it => q it && p it) l (lastWhere p l (poss q (enumF 0 l))) := by
  have h := poss_last (fun it => q it && p it) l
  have e : lastWhere p l (poss q (enumF 0 l)) = (poss (fun it => q it && p it) (enumF 0 l)).getLast? := by
    unfold lastWhere
    rw [← List.head?_reverse, ← List.head?_filter, List.filter_reverse]
    congr 2
    unfold poss
    rw [List.filter_map, List.filter_filter]
    congr 1
    apply List.filter_congr
    intro e he
    obtain ⟨j, x⟩ := e
    obtain ⟨-, h2⟩ := (mem_enumF 0 l j x).1 he
    have h2 : l[j]? = some x := h2
    simp only [Function.comp, h2]
    exact Bool.and_comm _ _
  rw [e]; exact h


/-- The name of the query and the open elements it asks for: a name, or a class of names, in the HTML namespace (or the parser's own). -/
inductive Spec.Query
  | any (name : Str)
  | html (name : Str) (parserOnly : Bool)
  | htmlOfAny (names : List Str)
  | anyHtml
  | anyOf (names : List Str)
  | foreign
  | scope (names : List Str)
  | rendered
  | template

/-- Which open elements a query asks for. -/
def Spec.Query.wants : Spec.Query → Item → Bool
  | .any n, it => it.name = n
  | .html n po, it => it.name = n && (it.html || (po && it.parserOnly))
  | .htmlOfAny ns, it => it.html && ns.contains it.name
  | .anyHtml, it => it.html
  | .anyOf ns, it => ns.contains it.name
  | .foreign, it => !it.html && !it.parserOnly && it.boundary
  | .scope ns, it => (it.html && ns.contains it.name) || (!it.html && !it.parserOnly && it.boundary)
  | .rendered, it => !it.parserOnly
  | .template, it => it.name = c%"template" && (it.parserOnly || (it.tpl && it.html))

/-- The answer of the code. -/
def Spec.Query.answer (s : CStack) : Spec.Query → Option Nat
  | .any n => s.lastIndexOf n
  | .html n po => s.lastHtmlIndexOf n po
  | .htmlOfAny ns => s.lastHtmlIndexOfAny ns
  | .anyHtml => s.lastHtmlIndex
  | .anyOf ns => s.lastIndexOfAny ns
  | .foreign => s.lastForeign
  | .scope ns => s.lastScopeBoundary ns
  | .rendered => s.lastRendered
  | .template => s.lastTemplateBoundary

theorem html_last {s : CStack} (h : Good s) (hi : s.indexed = true) (n : Str) :
    Last (fun it => it.html && it.name = n) s.items (dget s.index.html n).getLast? := by
  rw [(h.rep hi).html]; exact poss_last _ _

theorem other_last {s : CStack} (h : Good s) (hi : s.indexed = true) (n : Str) :
    Last (fun it => !it.html && it.name = n) s.items (dget s.index.other n).getLast? := by
  rw [(h.rep hi).other]; exact poss_last _ _

theorem htmlAny_last {s : CStack} (h : Good s) (hi : s.indexed = true) (names : List Str) :
    Last (fun it => it.html && names.contains it.name) s.items (s.lastHtmlIndexOfAny names) := by
  unfold CStack.lastHtmlIndexOfAny
  rw [if_pos hi]
  have h0 : Last (fun _ => false) s.items none := fun _ _ _ => rfl
  split
  · have := fold_dict s.items names.contains s.index.html (fun _ => false) none (by
      intro e he
      rw [← dict_mem (h.rep hi).keys he]
      exact html_last h hi e.1) h0
    refine last_congr ?_ this
    intro it hm
    rw [Bool.false_or, Bool.eq_iff_iff]
    simp only [List.any_eq_true, Bool.and_eq_true, decide_eq_true_eq]
    constructor
    · rintro ⟨e, he, h1, h2, h3⟩; exact ⟨h2, by rw [h3]; exact h1⟩
    · rintro ⟨h1, h2⟩
      obtain ⟨e, he, h3⟩ := rep_has (h.rep hi) hm h1
      exact ⟨e, he, by rw [h3]; exact h2, h1, h3.symm⟩
  · refine last_congr ?_ (fold_last _ _ s.items (html_last h hi) names (fun _ => false) none h0)
    intro it hm
    rw [Bool.false_or, Bool.eq_iff_iff]
    simp only [List.any_eq_true, Bool.and_eq_true, decide_eq_true_eq, List.contains_iff_mem]
    constructor
    · rintro ⟨n, hn, h2, h3⟩; exact ⟨h2, by rw [h3]; exact hn⟩
    · rintro ⟨h1, h2⟩; exact ⟨_, h2, h1, rfl⟩

/-- The queries that skip the bottom. -/
def Spec.Query.skips : Spec.Query → Prop
  | .any _ | .html _ _ | .anyHtml | .anyOf _ | .rendered => True
  | _ => False

theorem query_both {s : CStack} (h : Good s) (q : Query) (h00 : q.skips ∨ ∀ it, s.items[0]? = some it → q.wants it = false) :
    Topmost q.wants s.items (q.answer s) := by
  by_cases hi : s.indexed = true
  · have hd : Last (fun _ => false) s.items none := fun _ _ _ => rfl
    cases q with
    | any n =>
      simp only [Query.answer, CStack.lastIndexOf, hi, if_true, orNone_max]
      apply last_topmost
      refine last_congr ?_ (last_or (html_last h hi n) (other_last h hi n))
      intro it _
      cases hh : it.html <;> simp [Query.wants]
    | html n po =>
      simp only [Query.answer, CStack.lastHtmlIndexOf, hi, if_true]
      cases po with
      | false =>
        simp only [Bool.false_eq_true, if_false, orNone_getD]
        apply last_topmost
        refine last_congr ?_ (html_last h hi n)
        intro it _
        cases hh : it.html <;> simp [Query.wants, hh]
      | true =>
        simp only [if_true, orNone_max]
        apply last_topmost
        refine last_congr ?_ (last_or (html_last h hi n) (by rw [(h.rep hi).other]; exact lastWhere_spec _ _ _))
        intro it _
        cases hh : it.html <;> cases hp : it.parserOnly <;> simp [Query.wants, hh, hp]
    | htmlOfAny ns =>
      have h0 := h00.resolve_left id
      exact last_topmost' h0 (htmlAny_last h hi ns)
    | anyHtml =>
      simp only [Query.answer, CStack.lastHtmlIndex, hi, if_true]
      apply last_topmost
      have := fold_dict s.items (fun _ => true) s.index.html (fun _ => false) none (by
        intro e he
        rw [← dict_mem (h.rep hi).keys he]
        exact html_last h hi e.1) hd
      simp only [if_true] at this
      refine last_congr ?_ this
      intro it hm
      rw [Bool.false_or, Bool.eq_iff_iff]
      simp only [List.any_eq_true, Bool.and_eq_true, decide_eq_true_eq, Query.wants, true_and]
      constructor
      · rintro ⟨e, he, h2, h3⟩; exact h2
      · intro h1
        obtain ⟨e, he, h3⟩ := rep_has (h.rep hi) hm h1
        exact ⟨e, he, h1, h3.symm⟩
    | anyOf ns =>
      simp only [Query.answer, CStack.lastIndexOfAny, hi, if_true]
      apply last_topmost
      refine last_congr ?_ (fold_last _ _ s.items (other_last h hi) ns _ _ (fold_last _ _ s.items (html_last h hi) ns (fun _ => false) none hd))
      intro it hm
      rw [Bool.false_or, Bool.eq_iff_iff]
      simp only [List.any_eq_true, Bool.and_eq_true, Bool.or_eq_true, decide_eq_true_eq, List.contains_iff_mem, Query.wants]
      constructor
      · rintro (⟨n, hn, h2, h3⟩ | ⟨n, hn, h2, h3⟩) <;> rw [h3] <;> exact hn
      · intro h2
        cases hh : it.html
        · exact .inr ⟨_, h2, rfl, rfl⟩
        · exact .inl ⟨_, h2, rfl, rfl⟩
    | foreign =>
      have h0 := h00.resolve_left id
      refine last_topmost' h0 ?_
      simp only [Query.answer, CStack.lastForeign, hi, if_true]
      rw [(h.rep hi).foreign]
      exact poss_last _ _
    | scope ns =>
      have h0 := h00.resolve_left id
      refine last_topmost' h0 ?_
      simp only [Query.answer, CStack.lastScopeBoundary, hi, if_true]
      refine last_or (htmlAny_last h hi ns) ?_
      simp only [CStack.lastForeign, hi, if_true]
      rw [(h.rep hi).foreign]
      exact poss_last _ _
    | rendered =>
      simp only [Query.answer, CStack.lastRendered, hi, if_true, orNone_getD]
      apply last_topmost
      rw [(h.rep hi).rendered]
      exact poss_last _ _
    | template =>
      have h0 := h00.resolve_left id
      refine last_topmost' h0 ?_
      simp only [Query.answer, CStack.lastTemplateBoundary, hi, if_true]
      rw [(h.rep hi).html, (h.rep hi).other]
      refine last_congr ?_ (last_or (lastWhere_spec _ _ _) (lastWhere_spec _ _ _))
      intro it _
      have hp : it.html = true → it.parserOnly = false := by
        unfold Item.html Item.parserOnly
        rcases it.ns with _ | n
        · simp
        · simp only [reduceCtorEq, decide_false, Bool.false_or, decide_eq_true_eq, Option.some.injEq, decide_eq_false_iff_not]
          rintro rfl; decide
      cases hh : it.html
      · cases hpo : it.parserOnly <;> cases it.tpl <;> simp [Query.wants, hh, hpo]
      · rw [Query.wants, hp hh]; cases it.tpl <;> simp [hh]
  · simp only [Bool.not_eq_true] at hi
    cases q <;> simp only [Query.answer, CStack.lastIndexOf, CStack.lastHtmlIndexOf, CStack.lastHtmlIndexOfAny, CStack.lastHtmlIndex,
      CStack.lastIndexOfAny, CStack.lastForeign, CStack.lastScopeBoundary, CStack.lastRendered, CStack.lastTemplateBoundary, hi, Bool.false_eq_true, if_false]
    case scope ns =>
      refine topmost_congr ?_ (scanTop_spec _ s)
      intro it _
      cases hh : it.html <;> simp [Query.wants, hh]
    all_goals exact scanTop_spec _ s

theorem query_good {s : CStack} (h : Good s) (q : Query) (h0 : ∀ it, s.items[0]? = some it → q.wants it = false) :
    Topmost q.wants s.items (q.answer s) := query_both h q (.inr h0)

theorem query_unrooted {s : CStack} (h : Good s) (q : Query) (hq : q.skips) : Topmost q.wants s.items (q.answer s) := query_both h q (.inl hq)

theorem poss_length (p : Item → Bool) (i : Nat) (l : List Item) : (poss p (enumF i l)).length = l.countP p := by
  induction l generalizing i with
  | nil => rfl
  | cons x l ih =>
    rw [enumF]
    cases hx : p x
    · rw [poss_cons_false hx, ih, List.countP_cons_of_neg (by simp [hx])]
    · rw [poss_cons_true hx, List.length_cons, ih, List.countP_cons_of_pos hx]

theorem pSum_count (l : List Item) : pSum l = (l.countP fun it => it.name = c%"p" : Nat) := by
  induction l with
  | nil => rfl
  | cons x l ih =>
    rw [pSum, ih, isP]
    by_cases hx : x.name = c%"p"
    · rw [if_pos hx, List.countP_cons_of_pos (by simpa using hx)]; omega
    · rw [if_neg hx, List.countP_cons_of_neg (by simpa using hx)]; omega

theorem count_good {s : CStack} (h : Good s) (n : Str) : s.countOf n = (s.items.countP fun it => it.name = n : Nat) := by
  unfold CStack.countOf
  by_cases hn : n = c%"p"
  · rw [if_pos hn, h.p, pSum_count, hn]
  · rw [if_neg hn]
    split
    · rename_i hi
      rw [(h.rep hi).html, (h.rep hi).other, poss_length, poss_length]
      congr 1
      generalize s.items = l
      induction l with
      | nil => rfl
      | cons x l ih =>
        simp only [List.countP_cons]
        rw [← ih]
        by_cases hx : x.name = n <;> cases x.html <;> simp [hx] <;> omega
    · rfl

theorem contains_good {s : CStack} (h : Good s) (id : Nat) : s.contains id = s.items.any fun it => it.id = id := by
  unfold CStack.contains
  split
  · rename_i hi
    have hR := h.rep hi
    rw [Bool.eq_iff_iff]
    have key : (s.index.node.any fun p => p.1 = id) = true ↔ ∃ pos, s.index.node.lookup id = some pos := by
      generalize s.index.node = d
      induction d with
      | nil => simp
      | cons a d ih =>
        rw [List.any_cons, List.lookup]
        by_cases ha : id = a.1
        · simp [ha]
        · have : (id == a.1) = false := by simpa using ha
          rw [this, decide_eq_false (Ne.symm ha), Bool.false_or]
          exact ih
    rw [key]
    constructor
    · rintro ⟨pos, hp⟩
      obtain ⟨it, h1, h2⟩ := (hR.node id pos).1 hp
      exact List.any_eq_true.2 ⟨it, enum_snd h1, by simpa using h2⟩
    · intro hm
      obtain ⟨it, h1, h2⟩ := List.any_eq_true.1 hm
      obtain ⟨i, hi⟩ := List.getElem?_of_mem h1
      exact ⟨i, (hR.node id i).2 ⟨it, (mem_enumF 0 _ i it).2 ⟨by omega, by simpa using hi⟩, by simpa using h2⟩⟩
  · rfl

/-- C41: after any history of operations the stack holds what a plain list would hold (and an operation raises exactly when the plain list
operation does), and every query returns what a scan of that list from the top finds, whether or not the index has been switched on. The
queries that count the bottom of the stack differ only if the bottom (the document) is itself asked for, which the hypothesis excludes. -/
theorem C41_stack_agrees_with_scan (start : List Item) (hd : (start.map Item.id).Nodup) (ops : List StackOp) (hf : FreshRun start ops) :
    ((CStack.init start).run ops).map CStack.items = plainRun start ops ∧
    ∀ s, (CStack.init start).run ops = some s →
      (∀ q : Query, (∀ it, s.items[0]? = some it → q.wants it = false) → Topmost q.wants s.items (q.answer s)) ∧
      (∀ n, s.countOf n = (s.items.countP fun it => it.name = n : Nat)) ∧
      (∀ id, s.indexOfNode id = s.items.findIdx? fun it => it.id = id) ∧
      (∀ id, s.contains id = s.items.any fun it => it.id = id) := by
  obtain ⟨hg, hi⟩ := init_good start hd
  rcases run_good ops hg (by rw [hi]; exact hf) with ⟨h1, h2⟩ | ⟨s', h1, h2, h3⟩
  · rw [hi] at h1
    exact ⟨by rw [h2, h1]; rfl, by intro s hs; rw [h2] at hs; cases hs⟩
  · rw [hi] at h2
    refine ⟨by rw [h1, h2]; rfl, ?_⟩
    intro s hs
    rw [h1] at hs
    injection hs with hs
    subst hs
    exact ⟨fun q h0 => query_good h3 q h0, count_good h3, indexOfNode_spec h3, contains_good h3⟩

/-- Every query by name, by any of several names, for any HTML element and for any rendered element never answers with the bottom of the stack:
for them no hypothesis about the bottom is needed. -/
theorem C41_bottom_never_found (start : List Item) (hd : (start.map Item.id).Nodup) (ops : List StackOp) (hf : FreshRun start ops) (s : CStack)
    (hs : (CStack.init start).run ops = some s) :
    (∀ n, Topmost (Query.any n).wants s.items (s.lastIndexOf n)) ∧ (∀ n po, Topmost (Query.html n po).wants s.items (s.lastHtmlIndexOf n po)) ∧
    Topmost Query.anyHtml.wants s.items s.lastHtmlIndex ∧ (∀ ns, Topmost (Query.anyOf ns).wants s.items (s.lastIndexOfAny ns)) ∧
    Topmost Query.rendered.wants s.items s.lastRendered := by
  obtain ⟨hg, hi⟩ := init_good start hd
  rcases run_good ops hg (by rw [hi]; exact hf) with ⟨h1, h2⟩ | ⟨s', h1, h2, h3⟩
  · rw [h2] at hs; cases hs
  · rw [h1] at hs
    injection hs with hs
    subst hs
    exact ⟨fun n => query_unrooted h3 (.any n) trivial, fun n po => query_unrooted h3 (.html n po) trivial, query_unrooted h3 .anyHtml trivial,
      fun ns => query_unrooted h3 (.anyOf ns) trivial, query_unrooted h3 .rendered trivial⟩

/-! ### The hypotheses are met -/

instance decFresh (l : List Item) : (op : StackOp) → Decidable (Fresh l op)
  | .append _ | .insert _ _ | .set _ _ | .reset _ => by unfold Fresh; infer_instance
  | .delAt _ | .remove _ | .delSlice _ _ => .isTrue trivial

instance decFreshRun : (l : List Item) → (ops : List StackOp) → Decidable (FreshRun l ops)
  | _, [] => .isTrue trivial
  | l, op :: ops =>
    match decFresh l op with
    | .isFalse h => .isFalse fun h2 => h h2.1
    | .isTrue h =>
      match e : plainStep l op with
      | none => .isTrue ⟨h, fun l' hl => by rw [e] at hl; cases hl⟩
      | some l' =>
        match decFreshRun l' ops with
        | .isTrue h2 => .isTrue ⟨h, fun l'' hl => by rw [e] at hl; injection hl with hl; subst hl; exact h2⟩
        | .isFalse h2 => .isFalse fun h3 => h2 (h3.2 l' e)

/-- An element of the HTML namespace. -/
def mkItem (id : Nat) (name : Str) : Item := ⟨id, name, some c%"html", false, false⟩

/-- A document with `html`, `body`, a `p`, thirty nested `div`s, an SVG `title`, then operations in the middle: the index is on, and the queries see all of it. -/
def stackDemo : List StackOp :=
  [StackOp.append (mkItem 3 c%"p")] ++ (List.range 30).map (fun i => StackOp.append (mkItem (4 + i) c%"div")) ++
    [.append ⟨40, c%"title", some c%"svg", false, true⟩, .insert 3 (mkItem 41 c%"b"), .set 5 (mkItem 42 c%"p"), .delAt 10, .remove 12, .delSlice 20 25]

set_option maxRecDepth 20000 in
example : FreshRun [⟨0, c%"#document", none, false, false⟩, mkItem 1 c%"html", mkItem 2 c%"body"] stackDemo := by decide

set_option maxRecDepth 20000 in
example : (((CStack.init [⟨0, c%"#document", none, false, false⟩, mkItem 1 c%"html", mkItem 2 c%"body"]).run stackDemo).map fun s =>
    (s.indexed, s.items.length, s.lastIndexOf c%"p", s.countOf c%"p", s.lastForeign, s.lastScopeBoundary [c%"html"], s.indexOfNode 40, s.contains 12)) =
    some (true, 29, some 5, 2, some 28, some 28, some 28, false) := by rfl

end JH
