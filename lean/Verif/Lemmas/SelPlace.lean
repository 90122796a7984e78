import Verif.Model.SelMatch
import Verif.Spec.Selector
import Verif.Lemmas.DomForest
/-! Places among siblings, and what `parentStep` collects about them. -/
namespace JH
open Spec

theorem isHash_iff (h : Heap) (n : Nat) : isHash (h.obj n).name = true ↔ ¬ Elem h n := by
  unfold isHash Elem startsWith
  cases (h.obj n).name with
  | nil => simp
  | cons c cs =>
    have e : (c%"#").isPrefixOf (c :: cs) = ('#' == c) := by simp [List.isPrefixOf]
    rw [e, beq_iff_eq, Decidable.not_not, List.head?_cons, Option.some.injEq]
    exact eq_comm

theorem isHash_false (h : Heap) (n : Nat) : isHash (h.obj n).name = false ↔ Elem h n := by
  rw [← Bool.not_eq_true, isHash_iff, Decidable.not_not]

/-- The siblings before `n`. -/
def sibsBefore (l : List Nat) (n : Nat) : List Nat := l.takeWhile fun x => decide (x ≠ n)

theorem sibsBefore_split {a b : List Nat} {n : Nat} (h : n ∉ a) : sibsBefore (a ++ n :: b) n = a := by
  unfold sibsBefore
  rw [List.takeWhile_append_of_pos (by intro x hx; simp only [ne_eq, decide_not, Bool.not_eq_eq_eq_not, Bool.not_true, decide_eq_false_iff_not]; rintro rfl; exact h hx)]
  simp

theorem sibsBefore_snoc_mem {l : List Nat} {n x : Nat} (h : n ∈ l) : sibsBefore (l ++ [x]) n = sibsBefore l n := by
  induction l with
  | nil => cases h
  | cons y l ih =>
    by_cases hy : y = n
    · subst hy; simp [sibsBefore]
    · have := ih ((List.mem_cons.1 h).resolve_left (Ne.symm hy))
      unfold sibsBefore at this ⊢
      rw [List.cons_append, List.takeWhile_cons_of_pos (by simpa using hy), List.takeWhile_cons_of_pos (by simpa using hy), this]

theorem sibsBefore_not_mem {l : List Nat} {n : Nat} (h : n ∉ l) : sibsBefore l n = l := by
  induction l with
  | nil => rfl
  | cons y l ih =>
    have hy : y ≠ n := fun e => h (by simp [e])
    have := ih fun hm => h (by simp [hm])
    unfold sibsBefore at this ⊢
    rw [List.takeWhile_cons_of_pos (by simpa using hy), this]

theorem sibsBefore_snoc_new {l : List Nat} {n : Nat} (h : n ∉ l) : sibsBefore (l ++ [n]) n = l := sibsBefore_split h

/-- `l.split` at a member. -/
theorem split_mem {l : List Nat} {n : Nat} (h : n ∈ l) : ∃ b, l = sibsBefore l n ++ n :: b ∧ n ∉ sibsBefore l n := by
  induction l with
  | nil => cases h
  | cons y l ih =>
    by_cases hy : y = n
    · subst hy; exact ⟨l, by simp [sibsBefore], by simp [sibsBefore]⟩
    · obtain ⟨b, h1, h2⟩ := ih ((List.mem_cons.1 h).resolve_left (Ne.symm hy))
      have e : sibsBefore (y :: l) n = y :: sibsBefore l n := by
        unfold sibsBefore
        rw [List.takeWhile_cons_of_pos (by simpa using hy)]
      exact ⟨b, by rw [e, List.cons_append, ← h1], by rw [e]; simp [Ne.symm hy, h2]⟩

/-! ### Children of a node in a forest -/

theorem forest_nodup {h : Heap} (F : Forest h) (p : Nat) : (h.kids p).Nodup := by
  unfold Heap.kids
  cases hc : (h.obj p).children with
  | none => simp
  | some l => exact F.once p l hc

theorem forest_par {h : Heap} (F : Forest h) {p n : Nat} (hm : n ∈ h.kids p) : (h.obj n).parent = some p := by
  obtain ⟨l, hl, hm⟩ := some_kids hm
  exact F.back p l n hl hm

theorem isChild_iff {h : Heap} (F : Forest h) {p n : Nat} (hp : (h.obj n).parent = some p) : IsChild h n ↔ n ∈ h.kids p := by
  constructor
  · rintro ⟨q, l, hl, hm⟩
    have := F.back q l n hl hm
    rw [hp] at this
    cases this
    rw [kids_some hl]; exact hm
  · intro hm
    obtain ⟨l, hl, hm⟩ := some_kids hm
    exact ⟨p, l, hl, hm⟩

theorem not_isChild {h : Heap} (F : Forest h) {n : Nat} (hp : (h.obj n).parent = none) : ¬ IsChild h n := by
  rintro ⟨q, l, hl, hm⟩
  have := F.back q l n hl hm
  rw [hp] at this
  cases this

theorem earlier_iff {h : Heap} (F : Forest h) {p x n : Nat} (hp : (h.obj n).parent = some p) :
    Earlier h x n ↔ n ∈ h.kids p ∧ x ∈ sibsBefore (h.kids p) n := by
  constructor
  · rintro ⟨q, a, b, c, hl⟩
    have := F.back q _ n hl (by simp)
    rw [hp] at this
    cases this
    have hn := F.once p _ hl
    rw [kids_some hl]
    refine ⟨by simp, ?_⟩
    rw [sibsBefore_split]
    · simp
    · rw [List.nodup_append] at hn
      intro hm
      exact hn.2.2 n hm n (by simp) rfl
  · rintro ⟨hm, hx⟩
    obtain ⟨l, hl, hm⟩ := some_kids hm
    rw [kids_some hl] at hx
    obtain ⟨b, h1, -⟩ := split_mem hm
    obtain ⟨a1, a2, ha⟩ := List.append_of_mem hx
    refine ⟨p, a1, a2, b, ?_⟩
    rw [hl, h1, ha]

theorem earlier_parent {h : Heap} (F : Forest h) {x n : Nat} (he : Earlier h x n) : ∃ p, (h.obj n).parent = some p ∧ (h.obj x).parent = some p := by
  obtain ⟨q, a, b, c, hl⟩ := he
  exact ⟨q, F.back q _ n hl (by simp), F.back q _ x hl (by simp)⟩

theorem earlier_mem {h : Heap} (F : Forest h) {x n : Nat} (he : Earlier h x n) : ∃ p, (h.obj n).parent = some p ∧ n ∈ h.kids p ∧ x ∈ sibsBefore (h.kids p) n := by
  obtain ⟨p, hp, -⟩ := earlier_parent F he
  exact ⟨p, hp, (earlier_iff F hp).1 he⟩

theorem snoc_rec {α : Type} {P : List α → Prop} (hn : P []) (hs : ∀ l x, P l → P (l ++ [x])) (l : List α) : P l := by
  have : ∀ l : List α, P l.reverse := by
    intro l
    induction l with
    | nil => exact hn
    | cons x l ih => rw [List.reverse_cons]; exact hs _ _ ih
  have h := this l.reverse
  rwa [List.reverse_reverse] at h

theorem before_mem {l : List Nat} {x n : Nat} (hx : x ∈ sibsBefore l n) : x ∈ l := (List.takeWhile_sublist _).subset hx

theorem position_iff {h : Heap} (F : Forest h) {P : Nat → Prop} [DecidablePred P] {p n i : Nat} (hp : (h.obj n).parent = some p) :
    Position h P n i ↔ n ∈ h.kids p ∧ i = ((sibsBefore (h.kids p) n).filter fun x => P x).length + 1 := by
  constructor
  · rintro ⟨q, a, b, hl, hi⟩
    have := F.back q _ n hl (by simp)
    rw [hp] at this
    cases this
    have hn := F.once p _ hl
    rw [kids_some hl]
    refine ⟨by simp, ?_⟩
    rw [sibsBefore_split, hi]
    rw [List.nodup_append] at hn
    intro hm
    exact hn.2.2 n hm n (by simp) rfl
  · rintro ⟨hm, hi⟩
    obtain ⟨l, hl, hm⟩ := some_kids hm
    rw [kids_some hl] at hi
    obtain ⟨b, h1, -⟩ := split_mem hm
    exact ⟨p, sibsBefore l n, b, by rw [hl, ← h1], hi⟩

/-! ### `parentStep` -/

/-- What is collected about a list of children. -/
def pdOf (U : Uni) (h : Heap) (l : List Nat) : ParentAcc := l.foldl (parentStep U h) {}

theorem pdOf_snoc (U : Uni) (h : Heap) (l : List Nat) (x : Nat) : pdOf U h (l ++ [x]) = parentStep U h (pdOf U h l) x := by
  simp [pdOf, List.foldl_append]

/-- An element with the lower-case name `t`. -/
def ofType (U : Uni) (h : Heap) (t : Str) (x : Nat) : Prop := Elem h x ∧ U.lower (h.obj x).name = t

instance (U : Uni) (h : Heap) (t : Str) : DecidablePred (ofType U h t) := fun x => by unfold ofType; infer_instance

/-- The facts. -/
structure PDFacts (U : Uni) (h : Heap) (l : List Nat) (a : ParentAcc) : Prop where
  kids : a.d.kids = l.filter (Elem h)
  names : a.d.names = (l.filter (Elem h)).map fun x => U.lower (h.obj x).name
  index : ∀ n, a.d.index n = if n ∈ l ∧ Elem h n then some (((sibsBefore l n).filter (Elem h)).length + 1) else none
  typeIndex : ∀ n, a.d.typeIndex n = if n ∈ l ∧ Elem h n then some (((sibsBefore l n).filter (SameType U h n)).length + 1) else none
  firstBy : ∀ t, a.d.firstBy t = (l.filter (ofType U h t)).head?
  lastBy : ∀ t, a.d.lastBy t = (l.filter (ofType U h t)).getLast?
  prevSib : ∀ n, a.d.prevSib n = if n ∈ l then ((sibsBefore l n).filter (Elem h)).getLast? else none
  isEmpty : a.d.isEmpty = true ↔ ∀ x ∈ l, ¬ Elem h x ∧ ((h.obj x).name = c%"#text" → stripP U.isSpace ((h.obj x).data.getD []) = [])
  counts : ∀ t, a.counts t = (l.filter (ofType U h t)).length
  prev : a.prev = (l.filter (Elem h)).getLast?

theorem filter_snoc {α : Type} (p : α → Bool) (l : List α) (x : α) : (l ++ [x]).filter p = if p x then l.filter p ++ [x] else l.filter p := by
  rw [List.filter_append]
  by_cases hp : p x = true <;> simp [hp]

theorem ite_snoc_mem {β : Type} {l : List Nat} {x n : Nat} (hx : x ∉ l) {P : Prop} [Decidable P] (f : List Nat → β) (g : Option β) (hg : n = x → P → g = some (f l))
    (hg' : n = x → ¬ P → g = none) (hn : n ≠ x → g = if n ∈ l ∧ P then some (f (sibsBefore l n)) else none) :
    g = if n ∈ l ++ [x] ∧ P then some (f (sibsBefore (l ++ [x]) n)) else none := by
  by_cases he : n = x
  · subst he
    by_cases hP : P
    · rw [if_pos ⟨by simp, hP⟩, sibsBefore_snoc_new hx]; exact hg rfl hP
    · rw [if_neg (fun h => hP h.2)]; exact hg' rfl hP
  · rw [hn he]
    by_cases hm : n ∈ l
    · rw [sibsBefore_snoc_mem hm]; simp [hm]
    · simp [hm, he]

theorem pd_facts (U : Uni) (h : Heap) (l : List Nat) (hn : l.Nodup) : PDFacts U h l (pdOf U h l) := by
  induction l using snoc_rec with
  | hn => constructor <;> simp [pdOf]
  | hs l x ih =>
    rw [List.nodup_append] at hn
    have hx : x ∉ l := fun hm => hn.2.2 x hm x (by simp) rfl
    have I := ih hn.1
    rw [pdOf_snoc]
    generalize pdOf U h l = a at I
    have hpS : ∀ n, fput a.d.prevSib x a.prev n = if n ∈ l ++ [x] then ((sibsBefore (l ++ [x]) n).filter (Elem h)).getLast? else none := by
      intro n
      unfold fput
      by_cases he : n = x
      · subst he
        rw [if_pos rfl, if_pos (by simp), sibsBefore_snoc_new hx, I.prev]
      · rw [if_neg he, I.prevSib]
        by_cases hm : n ∈ l
        · rw [sibsBefore_snoc_mem hm]; simp [hm]
        · simp [hm, he]
    unfold parentStep
    dsimp only
    by_cases hh : isHash (h.obj x).name = true
    · have hE := (isHash_iff h x).1 hh
      have hT : ∀ t, ¬ ofType U h t x := fun t ht => hE ht.1
      rw [if_pos hh]
      have common : ∀ e : Bool, (e = true ↔ ∀ y ∈ l ++ [x], ¬ Elem h y ∧ ((h.obj y).name = c%"#text" → stripP U.isSpace ((h.obj y).data.getD []) = [])) →
          PDFacts U h (l ++ [x]) { a with d := { a.d with prevSib := fput a.d.prevSib x a.prev, isEmpty := e } } := by
        intro e hee
        constructor
        · dsimp only; rw [filter_snoc, if_neg (by simpa using hE)]; exact I.kids
        · dsimp only; rw [filter_snoc, if_neg (by simpa using hE)]; exact I.names
        · intro n
          refine ite_snoc_mem hx (fun l => (l.filter (Elem h)).length + 1) _ ?_ ?_ ?_
          · rintro rfl hE'; exact absurd hE' hE
          · rintro rfl _; dsimp only; rw [I.index]; simp [hx]
          · intro _; exact I.index n
        · intro n
          refine ite_snoc_mem hx (fun l => (l.filter (SameType U h n)).length + 1) _ ?_ ?_ ?_
          · rintro rfl hE'; exact absurd hE' hE
          · rintro rfl _; dsimp only; rw [I.typeIndex]; simp [hx]
          · intro _; exact I.typeIndex n
        · intro t; dsimp only; rw [filter_snoc, if_neg (by simpa using hT t)]; exact I.firstBy t
        · intro t; dsimp only; rw [filter_snoc, if_neg (by simpa using hT t)]; exact I.lastBy t
        · exact hpS
        · exact hee
        · intro t; dsimp only; rw [filter_snoc, if_neg (by simpa using hT t)]; exact I.counts t
        · dsimp only; rw [filter_snoc, if_neg (by simpa using hE)]; exact I.prev
      by_cases ht : (h.obj x).name = c%"#text" ∧ stripP U.isSpace ((h.obj x).data.getD []) ≠ []
      · rw [if_pos ht]
        refine common false ⟨nofun, fun hall => absurd ((hall x (by simp)).2 ht.1) ht.2⟩
      · rw [if_neg ht]
        refine common a.d.isEmpty ?_
        rw [I.isEmpty]
        constructor
        · intro hl y hy
          rcases List.mem_append.1 hy with hy | hy
          · exact hl y hy
          · rw [List.mem_singleton.1 hy]
            exact ⟨hE, fun hn => Decidable.not_not.1 fun hd => ht ⟨hn, hd⟩⟩
        · intro hl y hy; exact hl y (by simp [hy])
    · have hE := (isHash_false h x).1 (Bool.eq_false_iff.2 hh)
      have hT : ∀ t, ofType U h t x ↔ U.lower (h.obj x).name = t := fun t => ⟨fun ht => ht.2, fun ht => ⟨hE, ht⟩⟩
      rw [if_neg hh]
      constructor
      · dsimp only; rw [filter_snoc, if_pos (by simpa using hE), I.kids]
      · dsimp only; rw [filter_snoc, if_pos (by simpa using hE), I.names]; simp
      · intro n
        refine ite_snoc_mem hx (fun l => (l.filter (Elem h)).length + 1) _ ?_ ?_ ?_
        · rintro rfl _; dsimp only; simp [fput, I.kids]
        · rintro rfl hE'; exact absurd hE hE'
        · intro hne; dsimp only; rw [fput, if_neg hne]; exact I.index n
      · intro n
        refine ite_snoc_mem hx (fun l => (l.filter (SameType U h n)).length + 1) _ ?_ ?_ ?_
        · rintro rfl _
          dsimp only
          simp only [fput, if_pos, I.counts]
          rfl
        · rintro rfl hE'; exact absurd hE hE'
        · intro hne; dsimp only; rw [fput, if_neg hne]; exact I.typeIndex n
      · intro t
        dsimp only
        have hh : ∀ t, (a.d.firstBy t).isSome = true ↔ l.filter (ofType U h t) ≠ [] := by intro t; rw [I.firstBy]; simp
        by_cases ht : U.lower (h.obj x).name = t
        · have e : (l ++ [x]).filter (ofType U h t) = l.filter (ofType U h t) ++ [x] := by
            rw [filter_snoc, if_pos (by simpa using (hT t).2 ht)]
          rw [e, List.head?_append, ← I.firstBy]
          subst ht
          by_cases hf : (a.d.firstBy (U.lower (h.obj x).name)).isSome = true
          · rw [if_pos hf, Option.or_of_isSome hf]
          · rw [if_neg hf]
            have : a.d.firstBy (U.lower (h.obj x).name) = none := by simpa using hf
            rw [this]; simp [fput]
        · have e : (l ++ [x]).filter (ofType U h t) = l.filter (ofType U h t) := by
            rw [filter_snoc, if_neg (by simpa using fun h' => ht ((hT t).1 h'))]
          rw [e, ← I.firstBy]
          by_cases hf : (a.d.firstBy (U.lower (h.obj x).name)).isSome = true
          · rw [if_pos hf]
          · rw [if_neg hf, fput, if_neg (Ne.symm ht)]
      · intro t
        dsimp only
        rw [filter_snoc]
        by_cases ht : U.lower (h.obj x).name = t
        · rw [if_pos (by simpa using (hT t).2 ht)]
          subst ht
          simp [fput]
        · rw [if_neg (by simpa using fun h' => ht ((hT t).1 h')), fput, if_neg (Ne.symm ht)]
          exact I.lastBy t
      · exact hpS
      · exact ⟨nofun, fun hall => absurd hE (hall x (by simp)).1⟩
      · intro t
        dsimp only
        rw [filter_snoc]
        by_cases ht : U.lower (h.obj x).name = t
        · rw [if_pos (by simpa using (hT t).2 ht)]
          subst ht
          simp [fput, I.counts]
        · rw [if_neg (by simpa using fun h' => ht ((hT t).1 h')), fput, if_neg (Ne.symm ht)]
          exact I.counts t
      · dsimp only; rw [filter_snoc, if_pos (by simpa using hE)]; simp

end JH
