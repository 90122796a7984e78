import Verif.Props.Selector
/-! C45: limits and budgets. -/
namespace JH
open Spec

variable {U : Uni} {lim : SelLimits} {h : Heap}

/-- C45. What the parser accepts stays within the limits, at every level of nesting: the text is not too long, `:not` is not nested too deeply, no list has
too many entries, no complex selector too many parts and no compound too many simple selectors. (A limit of 0 for entries or parts still allows one.) -/
theorem C45_parse_limits {s : Str} {sel : Sel} (hs : parseSelector U lim s = some sel) :
    (stripP U.isSpace s).length ≤ lim.maxLength ∧ sel ≠ [] ∧ ∀ k t, Nested k t sel → t ≠ [] →
      k ≤ lim.maxParseDepth ∧ t.length ≤ max 1 lim.maxListItems ∧
        ∀ x ∈ t, partCount x ≤ max 1 lim.maxParts ∧ ∀ c, PartOf c x → c.simples.length ≤ lim.maxCompound := by
  have hg := (parseSelector_got hs).1
  refine ⟨parseSelector_length hs, hg.ne, ?_⟩
  intro k t ht hne
  have := hg.levels k t ht hne
  exact ⟨by omega, this.2⟩

/-- Steps spent and steps left make up the budget. -/
theorem closed_work (N d : Nat) : Closed (fun c => c.work + c.steps = N) d where
  steps := fun c hc h0 => by show c.work + 1 + (c.steps - 1) = N; omega
  bytes := fun _ _ hc => hc
  parent := fun _ _ hc => hc
  attrs := fun _ _ hc => hc
  nth := fun _ _ hc => hc
  text := fun _ _ hc => hc
  prev := fun _ _ hc => hc
  anc := fun _ _ hc _ => hc

theorem queryTest_keeps {E : SErr → Prop} {I : SCtx → Prop} {sel : Sel} (hm : ∀ n, KeepsE E I (matchSel U h (lim.maxMatchDepth + 1) sel n)) (n : Nat) :
    KeepsE E I (queryTest U lim h sel n) := .ite (hm n) .pure

theorem queryFrom_keeps {E : SErr → Prop} [BudgetC E] {I : SCtx → Prop} {d : Nat} (c : Closed I d) {test : Nat → SM Bool} (ht : ∀ n, KeepsE E I (test n)) (root : Nat) :
    KeepsE E I (queryFrom h test root) := .bind .get fun s => queryLoop_keeps c test ht _ _ _ _

theorem work_le {α : Type} {m : SM α} (hm : Keeps (fun c => c.work + c.steps = lim.maxSteps) m) : (m (.new lim)).2.work ≤ lim.maxSteps :=
  Nat.le.intro (hm (.new lim) (Nat.zero_add _)).1

/-- C45. On every heap, even one with cycles, `matches()` evaluates simple selectors and visits nodes at most `max_match_steps` times. -/
theorem C45_matches_work (sel : Sel) (n : Nat) : (matchSel U h (lim.maxMatchDepth + 1) sel n (.new lim)).2.work ≤ lim.maxSteps :=
  work_le (matchSel_keeps (closed_work lim.maxSteps (lim.maxMatchDepth + 1)) _ (Nat.le_refl _) sel n)

/-- C45. The same for `query()`, for all nodes together. -/
theorem C45_query_work (sel : Sel) (root : Nat) : (queryFrom h (queryTest U lim h sel) root (.new lim)).2.work ≤ lim.maxSteps :=
  work_le (queryFrom_keeps (closed_work lim.maxSteps (lim.maxMatchDepth + 1))
    (queryTest_keeps fun n => matchSel_keeps (closed_work lim.maxSteps (lim.maxMatchDepth + 1)) _ (Nat.le_refl _) sel n) root)

/-- C45. The same for the fast path of `query()`. -/
theorem C45_tag_query_work (t : Str) (root : Nat) : (queryFrom h (tagTest U h t) root (.new lim)).2.work ≤ lim.maxSteps :=
  work_le (queryFrom_keeps (closed_work lim.maxSteps 0) (fun _ => KeepsE.pure) root)

/-! ### Errors -/

mutual
theorem nested_simple : ∀ (s : Simple) {D : Compound}, D ∈ simpleParts s → ∃ name arg i, s = .pseudo name arg i ∧ ∃ k t x, Nested k t i ∧ x ∈ t ∧ PartOf D x
  | .pseudo name arg i, D, hD => by
    rw [simpleParts] at hD
    exact ⟨name, arg, i, rfl, nested_sel i hD⟩
  | .tag _, D, hD => by simp [simpleParts] at hD
  | .id _, D, hD => by simp [simpleParts] at hD
  | .cls _, D, hD => by simp [simpleParts] at hD
  | .universal, D, hD => by simp [simpleParts] at hD
  | .attr _ _, D, hD => by simp [simpleParts] at hD
theorem nested_simples : ∀ (l : List Simple) {D : Compound}, D ∈ simplesParts l → ∃ name arg i, .pseudo name arg i ∈ l ∧ ∃ k t x, Nested k t i ∧ x ∈ t ∧ PartOf D x
  | [], D, hD => by simp [simplesParts] at hD
  | s :: l, D, hD => by
    rw [simplesParts] at hD
    rcases List.mem_append.1 hD with hD | hD
    · obtain ⟨name, arg, i, e, r⟩ := nested_simple s hD
      exact ⟨name, arg, i, by simp [e], r⟩
    · obtain ⟨name, arg, i, e, r⟩ := nested_simples l hD
      exact ⟨name, arg, i, by simp [e], r⟩
theorem nested_compound : ∀ (c : Compound) {D : Compound}, D ∈ compoundParts c → D = c ∨ ∃ name arg i, .pseudo name arg i ∈ c.simples ∧ ∃ k t x, Nested k t i ∧ x ∈ t ∧ PartOf D x
  | .mk k l, D, hD => by
    rw [compoundParts] at hD
    rcases List.mem_cons.1 hD with hD | hD
    · exact .inl hD
    · exact .inr (nested_simples l hD)
theorem nested_complex : ∀ (x : Complex) {D : Compound}, D ∈ complexParts x →
    PartOf D x ∨ ∃ c, PartOf c x ∧ ∃ name arg i, .pseudo name arg i ∈ c.simples ∧ ∃ k t y, Nested k t i ∧ y ∈ t ∧ PartOf D y
  | .one c, D, hD => by
    rw [complexParts] at hD
    rcases nested_compound c hD with rfl | hD
    · exact .inl .one
    · exact .inr ⟨c, .one, hD⟩
  | .comb l o c, D, hD => by
    rw [complexParts] at hD
    rcases List.mem_append.1 hD with hD | hD
    · rcases nested_complex l hD with hD | ⟨d, hd, hD⟩
      · exact .inl (.left hD)
      · exact .inr ⟨d, .left hd, hD⟩
    · rcases nested_compound c hD with rfl | hD
      · exact .inl .last
      · exact .inr ⟨c, .last, hD⟩
theorem nested_sel : ∀ (l : List Complex) {D : Compound}, D ∈ selParts l → ∃ k t x, Nested k t l ∧ x ∈ t ∧ PartOf D x
  | [], D, hD => by simp [selParts] at hD
  | x :: l, D, hD => by
    rw [selParts] at hD
    rcases List.mem_append.1 hD with hD | hD
    · rcases nested_complex x hD with hD | ⟨c, hc, name, arg, i, hs, k, t, y, h1, h2, h3⟩
      · exact ⟨0, _, x, .here, by simp, hD⟩
      · exact ⟨k + 1, t, y, .down (List.mem_cons_self) hc hs h1, h2, h3⟩
    · obtain ⟨k, t, y, h1, h2, h3⟩ := nested_sel l hD
      cases h1 with
      | here => exact ⟨0, _, y, .here, by simp [h2], h3⟩
      | down g1 g2 g3 g4 => exact ⟨_, t, y, .down (List.mem_cons_of_mem _ g1) g2 g3 g4, h2, h3⟩
end

/-- Running out of budget. -/
def BudgetErr (e : SErr) : Prop := e = .steps ∨ e = .bytes

instance : BudgetC BudgetErr := ⟨⟨.inl rfl, .inr rfl⟩⟩

theorem supported_known {sel : Sel} (hs : SupportedSel sel) {E : SErr → Prop} : ∀ C ∈ selParts sel, ∀ s ∈ C.simples, KnownSimple s ∨ (E .unsupported ∧ E .noArg) := by
  intro C hC s hsC
  obtain ⟨k, t, x, h1, h2, h3⟩ := nested_sel sel hC
  cases s with
  | pseudo name arg i => exact .inl (hs k t h1 x h2 C h3 name arg i hsC)
  | _ => exact .inl trivial

theorem closed_true (d : Nat) : Closed (fun _ => True) d :=
  ⟨fun _ _ _ => trivial, fun _ _ _ => trivial, fun _ _ _ => trivial, fun _ _ _ => trivial, fun _ _ _ => trivial, fun _ _ _ => trivial, fun _ _ _ => trivial, fun _ _ _ _ => trivial⟩

/-- C45. If all pseudo-classes exist and the parser's nesting limit is not above the matcher's, an accepted selector raises nothing but budget errors, on
any heap: it is never "too deeply nested" at match time. -/
theorem C45_matches_errors {s : Str} {sel : Sel} (hs : parseSelector U lim s = some sel) (hk : SupportedSel sel) (hd : lim.maxParseDepth ≤ lim.maxMatchDepth)
    (n : Nat) (e : SErr) (he : (matchSel U h (lim.maxMatchDepth + 1) sel n (.new lim)).1 = .error e) : e = .steps ∨ e = .bytes :=
  (matchSel_keepsE (E := BudgetErr) (closed_true (lim.maxMatchDepth + 1)) _ (Nat.le_refl _) sel (supported_known hk)
    (.inl (by have := (parseSelector_got hs).1.nest; omega)) n (.new lim) trivial).2.2 e he

/-- C45. The same for `query()`. -/
theorem C45_query_errors {s : Str} {sel : Sel} (hs : parseSelector U lim s = some sel) (hk : SupportedSel sel) (hd : lim.maxParseDepth ≤ lim.maxMatchDepth)
    (root : Nat) (e : SErr) (he : (queryFrom h (queryTest U lim h sel) root (.new lim)).1 = .error e) : e = .steps ∨ e = .bytes :=
  (queryFrom_keeps (E := BudgetErr) (closed_true (lim.maxMatchDepth + 1)) (queryTest_keeps fun n => matchSel_keepsE (E := BudgetErr) (closed_true (lim.maxMatchDepth + 1)) _ (Nat.le_refl _) sel (supported_known hk)
    (.inl (by have := (parseSelector_got hs).1.nest; omega)) n) root (.new lim) trivial).2.2 e he

/-! ### Rounds -/

theorem closed_steps (N d : Nat) : Closed (fun c => c.steps ≤ N) d where
  steps := fun c hc h0 => by show c.steps - 1 ≤ N; omega
  bytes := fun _ _ hc => hc
  parent := fun _ _ hc => hc
  attrs := fun _ _ hc => hc
  nth := fun _ _ hc => hc
  text := fun _ _ hc => hc
  prev := fun _ _ hc => hc
  anc := fun _ _ hc _ => hc

theorem step_run {α : Type} (k : SM α) (c : SCtx) :
    (do tick; work1; k : SM α) c = if c.steps = 0 then (.error .steps, c) else k { c with steps := c.steps - 1, work := c.work + 1 } := by
  by_cases h0 : c.steps = 0
  · simp [bind_run, tick, h0]
  · simp [bind_run, tick, work1, h0]

theorem get_bind {α β : Type} (f : SCtx → α) (g : α → SM β) (c : SCtx) : (SM.get f >>= g) c = g (f c) c := rfl

/-- C45. The number of rounds that the model allows a query is not a limit of its own: with more rounds the result is the same. -/
theorem C45_query_rounds (test : Nat → SM Bool) (ht : ∀ N n, Keeps (fun c => c.steps ≤ N) (test n)) (f : Nat) : ∀ g stack visited acc c, c.steps < f → c.steps < g →
    queryLoop h test f stack visited acc c = queryLoop h test g stack visited acc c := by
  induction f with
  | zero => intro g st v a c h1; omega
  | succ f ih =>
    intro g st v a c h1 h2
    cases g with
    | zero => omega
    | succ g =>
      cases st with
      | nil => rfl
      | cons n st =>
        rw [queryLoop, queryLoop, step_run, step_run]
        by_cases h0 : c.steps = 0
        · rw [if_pos h0, if_pos h0]
        · rw [if_neg h0, if_neg h0]
          by_cases hv : v.contains n = true
          · rw [if_pos hv, if_pos hv]
            exact ih g st v a _ (by show c.steps - 1 < f; omega) (by show c.steps - 1 < g; omega)
          · rw [if_neg hv, if_neg hv, bind_run, bind_run]
            have hk := (ht (c.steps - 1) n { c with steps := c.steps - 1, work := c.work + 1 } (Nat.le_refl _)).1
            rcases hr : test n { c with steps := c.steps - 1, work := c.work + 1 } with ⟨r, c'⟩
            rw [hr] at hk
            dsimp only at hk
            cases r with
            | error e => rfl
            | ok b => exact ih g _ _ _ c' (by omega) (by omega)

/-- C45. The test of a query never gains steps. -/
theorem C45_query_test_spends (sel : Sel) (N n : Nat) : Keeps (fun c => c.steps ≤ N) (queryTest U lim h sel n) :=
  queryTest_keeps (fun n => matchSel_keeps (closed_steps N (lim.maxMatchDepth + 1)) _ (Nat.le_refl _) sel n) n

/-- C45. The same for the way up to the closest ancestor. -/
theorem C45_ancestor_rounds (inner : Sel → Nat → SM Bool) (hin : ∀ N s n, Keeps (fun c => c.steps ≤ N) (inner s n)) (d : Nat) (C : Compound) (f : Nat) :
    ∀ g visited path cur c, c.steps < f → c.steps < g → ancLoop U h inner d C f visited path cur c = ancLoop U h inner d C g visited path cur c := by
  induction f with
  | zero => intro g v p x c h1; omega
  | succ f ih =>
    intro g v p x c h1 h2
    cases g with
    | zero => omega
    | succ g =>
      cases x with
      | none => rfl
      | some a =>
        rw [ancLoop, ancLoop, step_run, step_run]
        by_cases h0 : c.steps = 0
        · rw [if_pos h0, if_pos h0]
        · rw [if_neg h0, if_neg h0]
          by_cases hv : v.contains a = true
          · rw [if_pos hv, if_pos hv]
          · rw [if_neg hv, if_neg hv, get_bind, get_bind]
            show (match c.anc C.key d a with | some r => _ | none => _ : SM (Option Nat × List Nat)) _ = (match c.anc C.key d a with | some r => _ | none => _ : SM (Option Nat × List Nat)) _
            rcases hc : c.anc C.key d a with _ | r
            · dsimp only
              rw [bind_run, bind_run]
              have hk := (matchCompound_keeps (U := U) (h := h) (closed_steps (c.steps - 1) 0) inner (hin _) a C { c with steps := c.steps - 1, work := c.work + 1 } (Nat.le_refl _)).1
              rcases hr : matchCompound U h inner a C { c with steps := c.steps - 1, work := c.work + 1 } with ⟨r, c'⟩
              rw [hr] at hk
              dsimp only at hk
              cases r with
              | error e => rfl
              | ok b =>
                cases b with
                | true => rfl
                | false => exact ih g _ _ _ c' (by omega) (by omega)
            · rfl

/-- C45. The same for the text of a node. -/
theorem C45_text_rounds (f : Nat) : ∀ g stack visiting c, c.steps < f → c.steps < g → textLoop U h f stack visiting c = textLoop U h g stack visiting c := by
  induction f with
  | zero => intro g st v c h1; omega
  | succ f ih =>
    intro g st v c h1 h2
    cases g with
    | zero => omega
    | succ g =>
      cases st with
      | nil => rfl
      | cons x st =>
        obtain ⟨n, done⟩ := x
        rw [textLoop, textLoop, step_run, step_run]
        by_cases h0 : c.steps = 0
        · rw [if_pos h0, if_pos h0]
        · rw [if_neg h0, if_neg h0, get_bind, get_bind]
          by_cases ht : (c.text n).isSome = true
          · rw [if_pos ht, if_pos ht]
            exact ih g _ _ _ (by show c.steps - 1 < f; omega) (by show c.steps - 1 < g; omega)
          · rw [if_neg ht, if_neg ht]
            cases done with
            | true =>
              rw [if_pos rfl, if_pos rfl, bind_run, bind_run]
              have hk := (nodeText_keeps (E := fun _ => True) (U := U) (h := h) (closed_steps (c.steps - 1) 0) n { c with steps := c.steps - 1, work := c.work + 1 } (Nat.le_refl _)).1
              rcases hr : nodeText U h n { c with steps := c.steps - 1, work := c.work + 1 } with ⟨r, c'⟩
              rw [hr] at hk
              dsimp only at hk
              cases r with
              | error e => rfl
              | ok s => exact ih g _ _ { c' with text := fput c'.text n (some s) } (by show c'.steps < f; omega) (by show c'.steps < g; omega)
            | false =>
              have hf : ¬ (false = true) := by decide
              rw [if_neg hf, if_neg hf]
              by_cases hv : v.contains n = true
              · rw [if_pos hv, if_pos hv]
                exact ih g _ _ { c with steps := c.steps - 1, work := c.work + 1, text := fput c.text n (some []) } (by show c.steps - 1 < f; omega) (by show c.steps - 1 < g; omega)
              · rw [if_neg hv, if_neg hv]
                exact ih g _ _ _ (by show c.steps - 1 < f; omega) (by show c.steps - 1 < g; omega)

/-! ### Non-trivial cases -/

/-- At the limits and above. -/
example : (parseSelector Uni.sample { maxListItems := 2 } c%"a, b").isSome = true ∧ (parseSelector Uni.sample { maxListItems := 2 } c%"a, b, i").isSome = false ∧
    (parseSelector Uni.sample { maxParseDepth := 1 } c%":not(b)").isSome = true ∧ (parseSelector Uni.sample { maxParseDepth := 1 } c%":not(:not(b))").isSome = false ∧
    (parseSelector Uni.sample { maxParts := 2 } c%"a > b").isSome = true ∧ (parseSelector Uni.sample { maxParts := 2 } c%"a > b + i").isSome = false ∧
    (parseSelector Uni.sample { maxCompound := 2 } c%"a.b").isSome = true ∧ (parseSelector Uni.sample { maxCompound := 2 } c%"a.b#i").isSome = false := by
  decide +kernel

/-- A budget that suffices and one that does not. -/
example : query Uni.sample { maxSteps := 40 } greedyHeap 0 c%"p > b" = some [3, 6] ∧ query Uni.sample { maxSteps := 20 } greedyHeap 0 c%"p > b" = none := by
  decide +kernel

/-- A selector whose pseudo-classes exist. -/
example : ∃ sel, parseSelector Uni.sample {} c%"b:not(:first-child)" = some sel ∧ SupportedSel sel := by
  refine ⟨[.one (.mk 1 [.tag c%"b", .pseudo c%"not" (some c%":first-child") [.one (.mk 0 [.pseudo c%"first-child" none []])]])], by with_unfolding_all rfl, ?_⟩
  intro k t ht x hx c hc name arg i hs
  cases ht with
  | here =>
    rw [List.mem_singleton] at hx
    subst hx
    cases hc
    simp [Compound.simples] at hs
    obtain ⟨rfl, rfl, rfl⟩ := hs
    exact ⟨by decide, by decide⟩
  | down h1 h2 h3 h4 =>
    rw [List.mem_singleton] at h1
    subst h1
    cases h2
    simp [Compound.simples] at h3
    obtain ⟨rfl, rfl, rfl⟩ := h3
    cases h4 with
    | here =>
      rw [List.mem_singleton] at hx
      subst hx
      cases hc
      simp [Compound.simples] at hs
      obtain ⟨rfl, rfl, rfl⟩ := hs
      exact ⟨by decide, by decide⟩
    | down g1 g2 g3 g4 =>
      rw [List.mem_singleton] at g1
      subst g1
      cases g2
      simp [Compound.simples] at g3
      obtain ⟨rfl, rfl, rfl⟩ := g3
      cases g4 with
      | here => cases hx
      | down k1 _ _ _ => cases k1

end JH
