import Verif.Lemmas.SelPlace
/-! Words, and attributes under lower-case names. -/
namespace JH
open Spec

theorem word_split (U : Uni) (t x y : Str) (c : Char) (hc : U.isSpace c = true) : Word U t (x ++ c :: y) ↔ Word U t x ∨ Word U t y := by
  constructor
  · rintro ⟨h1, h2, a, b, he, ha, hb⟩
    have hct : c ∉ t := fun hm => by rw [h2 c hm] at hc; cases hc
    rcases List.append_eq_append_iff.1 he with ⟨m, e1, e2⟩ | ⟨m, e1, e2⟩
    · -- a ++ t = x ++ m, c :: y = m ++ b
      cases m with
      | nil =>
        rw [List.append_nil] at e1
        exact .inl ⟨h1, h2, a, [], by rw [List.append_nil, e1], ha, by simp⟩
      | cons d m =>
        rw [List.cons_append] at e2
        cases e2
        rcases List.append_eq_append_iff.1 e1 with ⟨k, e3, e4⟩ | ⟨k, e3, e4⟩
        · exact absurd (by rw [e4]; simp) hct
        · cases k with
          | nil => exact absurd (by rw [List.nil_append] at e4; rw [← e4]; simp) hct
          | cons d k =>
            rw [List.cons_append] at e4
            cases e4
            refine .inr ⟨h1, h2, k, b, rfl, ?_, hb⟩
            intro z hz
            refine ha z ?_
            rw [e3]
            cases k with
            | nil => cases hz
            | cons _ _ => simpa [List.getLast?_append, List.getLast?_cons_cons] using hz
    · refine .inl ⟨h1, h2, a, m, by rw [e1], ha, ?_⟩
      intro z hz
      refine hb z ?_
      rw [e2]
      cases m with
      | nil => cases hz
      | cons _ _ => exact hz
  · rintro (⟨h1, h2, a, b, rfl, ha, hb⟩ | ⟨h1, h2, a, b, rfl, ha, hb⟩)
    · refine ⟨h1, h2, a, b ++ c :: y, by simp, ha, ?_⟩
      intro z hz
      cases b with
      | nil => cases hz; exact hc
      | cons d b => exact hb z hz
    · refine ⟨h1, h2, x ++ c :: a, b, by simp, ?_, hb⟩
      intro z hz
      cases a with
      | nil => simp at hz; rw [← hz]; exact hc
      | cons d a => exact ha z (by simpa [List.getLast?_append, List.getLast?_cons_cons] using hz)

theorem word_solid (U : Uni) (t x : Str) (hx : ∀ c ∈ x, U.isSpace c = false) : Word U t x ↔ x ≠ [] ∧ t = x := by
  constructor
  · rintro ⟨h1, -, a, b, rfl, ha, hb⟩
    have ea : a = [] := by
      cases hl : a.getLast? with
      | none => simpa using hl
      | some c =>
        have := hx c (by simp [List.mem_of_getLast? hl])
        rw [ha c hl] at this
        cases this
    have eb : b = [] := by
      cases hl : b.head? with
      | none => simpa using hl
      | some c =>
        have := hx c (by simp [List.mem_of_head? hl])
        rw [hb c hl] at this
        cases this
    subst ea eb
    simpa using h1
  · rintro ⟨h1, rfl⟩
    exact ⟨h1, hx, [], [], by simp, by simp, by simp⟩

theorem mem_splitWs (U : Uni) (t : Str) (s : Str) : ∀ w : Str, (∀ c ∈ w, U.isSpace c = false) →
    (t ∈ splitWs U.isSpace w s ↔ Word U t (w.reverse ++ s)) := by
  induction s with
  | nil =>
    intro w hw
    rw [List.append_nil, word_solid U t _ (by simpa using hw), splitWs]
    cases w <;> simp
  | cons c s ih =>
    intro w hw
    rw [splitWs]
    by_cases hc : U.isSpace c = true
    · have e := ih [] (by simp)
      rw [word_split U t _ _ c hc, word_solid U t _ (by simpa using hw), if_pos hc]
      cases w with
      | nil => simpa using e
      | cons d w => simpa using by rw [e]; simp
    · rw [if_neg hc, ih (c :: w) (by simpa [Bool.not_eq_true _ ▸ hc] using hw)]
      simp

theorem mem_words (U : Uni) (t s : Str) : t ∈ splitWs U.isSpace [] s ↔ Word U t s := by
  rw [mem_splitWs U t s [] (by simp)]; simp

/-! ### Attributes -/

/-- `attrs_lower[name] = value`. -/
def attrPut (U : Uni) (acc : List (Str × Str)) (q : Str × Option Str) : List (Str × Str) :=
  if acc.any fun p => p.1 = U.lower q.1 then acc.map fun p => if p.1 = U.lower q.1 then (U.lower q.1, q.2.getD []) else p
  else acc ++ [(U.lower q.1, q.2.getD [])]

def attrsLower (U : Uni) (d : Dict) : List (Str × Str) := d.foldl (attrPut U) []

theorem lookupS_append (l m : List (Str × Str)) (n : Str) : lookupS (l ++ m) n = (lookupS l n).or (lookupS m n) := by
  unfold lookupS
  rw [List.find?_append]
  cases List.find? (fun p => decide (p.1 = n)) l <;> simp

theorem lookupS_none (l : List (Str × Str)) (n : Str) : lookupS l n = none ↔ ∀ p ∈ l, p.1 ≠ n := by
  unfold lookupS; simp

theorem lookupS_map (l : List (Str × Str)) (k v n : Str) :
    lookupS (l.map fun p => if p.1 = k then (k, v) else p) n = if n = k then (lookupS l k).map fun _ => v else lookupS l n := by
  induction l with
  | nil => simp [lookupS]
  | cons p l ih =>
    unfold lookupS at ih ⊢
    rw [List.map_cons]
    by_cases hp : p.1 = k
    · rw [if_pos hp]
      by_cases hn : n = k
      · subst hn; simp [hp]
      · rw [if_neg hn] at ih ⊢
        rw [List.find?_cons_of_neg (by simpa using Ne.symm hn), ih, List.find?_cons_of_neg (by simpa [hp] using Ne.symm hn)]
    · rw [if_neg hp]
      by_cases hn : n = k
      · subst hn
        rw [if_pos rfl] at ih ⊢
        rw [List.find?_cons_of_neg (by simpa using hp), ih, List.find?_cons_of_neg (by simpa using hp)]
      · rw [if_neg hn] at ih ⊢
        by_cases hpn : p.1 = n
        · simp [hpn]
        · rw [List.find?_cons_of_neg (by simpa using hpn), ih, List.find?_cons_of_neg (by simpa using hpn)]

theorem lookup_attrPut (U : Uni) (acc : List (Str × Str)) (q : Str × Option Str) (n : Str) :
    lookupS (attrPut U acc q) n = if n = U.lower q.1 then some (q.2.getD []) else lookupS acc n := by
  unfold attrPut
  by_cases ha : (acc.any fun p => decide (p.1 = U.lower q.1)) = true
  · rw [if_pos ha, lookupS_map]
    by_cases hn : n = U.lower q.1
    · rw [if_pos hn, if_pos hn]
      cases hl : lookupS acc (U.lower q.1) with
      | some v => rfl
      | none =>
        rw [lookupS_none] at hl
        obtain ⟨p, hp, he⟩ := List.any_eq_true.1 ha
        exact absurd (by simpa using he) (hl p hp)
    · rw [if_neg hn, if_neg hn]
  · rw [if_neg ha, lookupS_append]
    by_cases hn : n = U.lower q.1
    · have : lookupS acc n = none := by
        rw [lookupS_none]
        intro p hp he
        exact ha (List.any_eq_true.2 ⟨p, hp, by simp [he, hn]⟩)
      rw [this, if_pos hn]; simp [lookupS, hn]
    · rw [if_neg hn]
      have : lookupS [(U.lower q.1, q.2.getD [])] n = none := by rw [lookupS_none]; simpa using Ne.symm hn
      rw [this]; simp

theorem attrsLower_some (U : Uni) (d : Dict) (n v : Str) :
    lookupS (attrsLower U d) n = some v ↔ ∃ a k x b, d = a ++ (k, x) :: b ∧ U.lower k = n ∧ v = x.getD [] ∧ ∀ q ∈ b, U.lower q.1 ≠ n := by
  induction d using snoc_rec with
  | hn => simp [attrsLower, lookupS]
  | hs d q ih =>
    have e : attrsLower U (d ++ [q]) = attrPut U (attrsLower U d) q := by simp [attrsLower, List.foldl_append]
    rw [e, lookup_attrPut]
    by_cases hn : n = U.lower q.1
    · rw [if_pos hn]
      constructor
      · intro he
        cases he
        exact ⟨d, q.1, q.2, [], by simp, hn.symm, rfl, by simp⟩
      · rintro ⟨a, k, x, b, h1, h2, rfl, h4⟩
        rcases List.eq_nil_or_concat b with rfl | ⟨b', z, rfl⟩
        · have := List.append_inj_right' h1 rfl
          cases this
          rfl
        · have h5 : d ++ [q] = (a ++ (k, x) :: b') ++ [z] := by rw [h1]; simp
          have := List.append_inj_right' h5 rfl
          cases this
          exact absurd hn.symm (h4 q (by simp))
    · rw [if_neg hn, ih]
      constructor
      · rintro ⟨a, k, x, b, h1, h2, h3, h4⟩
        refine ⟨a, k, x, b ++ [q], by rw [h1]; simp, h2, h3, ?_⟩
        intro z hz
        rcases List.mem_append.1 hz with hz | hz
        · exact h4 z hz
        · rw [List.mem_singleton.1 hz]; exact Ne.symm hn
      · rintro ⟨a, k, x, b, h1, h2, h3, h4⟩
        rcases List.eq_nil_or_concat b with rfl | ⟨b', z, rfl⟩
        · have := List.append_inj_right' h1 rfl
          cases this
          exact absurd h2.symm hn
        · have h5 : d ++ [q] = (a ++ (k, x) :: b') ++ [z] := by rw [h1]; simp
          have h6 := List.append_inj_left' h5 rfl
          exact ⟨a, k, x, b', h6, h2, h3, fun y hy => h4 y (by simp [hy])⟩

theorem attrsLower_is (U : Uni) (h : Heap) (n : Nat) (name v : Str) : lookupS (attrsLower U (h.attrsOf n)) name = some v ↔ AttrIs U h n name v := by
  rw [attrsLower_some]
  unfold AttrIs Heap.attrsOf
  cases (h.obj n).attrs with
  | none => simp
  | some d =>
    constructor
    · rintro ⟨a, k, x, b, h1, h2, h3, h4⟩; exact ⟨d, a, k, x, b, rfl, h1, h2, h3, h4⟩
    · rintro ⟨d', a, k, x, b, e, h1, h2, h3, h4⟩; cases e; exact ⟨a, k, x, b, h1, h2, h3, h4⟩

end JH
