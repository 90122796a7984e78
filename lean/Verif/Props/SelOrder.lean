import Verif.Props.SelLimits
/-! C64, C65, C66: order of results, the fast path, selectors without combinators. -/
namespace JH
open Spec

variable {U : Uni} {lim : SelLimits} {h : Heap}

/-- C64. Whatever the selector, `query()` returns nodes below the root, no node twice, in document order. -/
theorem C64_query_document_order (r : TidyReachable h) {root : Nat} {s : Str} {out : List Nat} (hq : query U lim h root s = some out) :
    ∃ l, Preorder h (under h root) l ∧ l.Nodup ∧ out.Sublist l := by
  have w := (reach_inv (tidy_reach r)).wf
  have hh := tidy_host r
  have main : ∀ test : Nat → SM Bool, (∀ n, Keeps (fun _ => True) (test n)) → (queryFrom h test root (.new lim)).1 = .ok out →
      ∃ l, Preorder h (under h root) l ∧ l.Nodup ∧ out.Sublist l := by
    intro test ht hq
    obtain ⟨l, h1, h2, h3⟩ := ((queryFrom_ok w hh (I := fun _ => True) (E := fun _ => True) (R := fun _ _ => True) (fun _ _ _ => trivial) trivial test
      (fun n => ht n) root) (.new lim) trivial).2.1 out hq
    exact ⟨l, h1, h2, chosen_sub h3⟩
  unfold query at hq
  dsimp only at hq
  split at hq
  · cases hq
  · split at hq
    · cases hq
    · split at hq
      · exact main _ (fun n => KeepsE.pure) (toOption_ok hq)
      · split at hq
        · cases hq
        · exact main _ (queryTest_keeps fun n => matchSel_keeps (closed_true _) _ (Nat.le_refl _) _ n) (toOption_ok hq)

/-- C64. There is exactly one document order, and it lists exactly what is below the root. -/
theorem C64_order_is_unique (r : TidyReachable h) (root : Nat) :
    ∃ l, Preorder h (under h root) l ∧ (∀ l', Preorder h (under h root) l' → l' = l) ∧ ∀ n ∈ l, Above h root n := by
  have w := (reach_inv (tidy_reach r)).wf
  have hh := tidy_host r
  obtain ⟨l, hl⟩ := preorder_exists w hh (under h root)
  refine ⟨l, hl, fun l' hl' => preorder_unique hl' hl, ?_⟩
  intro n hn
  obtain ⟨m, hm, hx⟩ := preorder_mem w hh hl n hn
  have hp : Above h root m := .parent (under_parent w hh hm)
  rcases hx with rfl | hx
  · exact hp
  · exact above_trans hp hx

/-- C64. Everything that is below the root by way of children is listed. -/
theorem C64_descendants_listed {root : Nat} {l : List Nat} (hl : Preorder h (under h root) l) {n : Nat} (hb : Below h root n) : n ∈ l := by
  have all : ∀ l out, Preorder h l out → ∀ m ∈ l, m ∈ out ∧ ∀ n, Below h m n → n ∈ out := by
    intro l out hp
    induction hp with
    | nil => nofun
    | @cons x l a b h1 h2 ih1 ih2 =>
      intro m hm
      rcases List.mem_cons.1 hm with rfl | hm
      · refine ⟨by simp, ?_⟩
        intro n hn
        have inA : n ∈ a := by
          cases hn with
          | child hc hn => exact (ih1 n (List.mem_append_right _ (by rw [hc]; exact hn))).1
          | down hc hn hd => exact (ih1 _ (List.mem_append_right _ (by rw [hc]; exact hn))).2 n hd
        simp [inA]
      · obtain ⟨g1, g2⟩ := ih2 m hm
        exact ⟨by simp [g1], fun n hn => by simp [g2 n hn]⟩
  cases hb with
  | child hc hn => exact (all _ _ hl n (List.mem_append_right _ (by rw [hc]; exact hn))).1
  | down hc hn hd => exact (all _ _ hl _ (List.mem_append_right _ (by rw [hc]; exact hn))).2 n hd

/-- Answers are determined by the question. -/
theorem answers_unique {unq : Str → Str} {root : Nat} {sel : Sel} {a b : List Nat} (ha : Answers U unq h root sel a) (hb : Answers U unq h root sel b) : a = b := by
  obtain ⟨l, h1, h2, h3, h4⟩ := ha
  obtain ⟨l', g1, g2, g3, g4⟩ := hb
  have e := preorder_unique g1 h1
  subst e
  have key : ∀ (l a b : List Nat), l.Nodup → a.Sublist l → b.Sublist l → (∀ n ∈ l, n ∈ a ↔ n ∈ b) → a = b := by
    intro l
    induction l with
    | nil => intro a b _ ha hb _; rw [List.sublist_nil.1 ha, List.sublist_nil.1 hb]
    | cons x l ih =>
      intro a b hn ha hb hab
      rw [List.nodup_cons] at hn
      have hx := hab x (by simp)
      cases ha with
      | cons _ ha =>
        cases hb with
        | cons _ hb => exact ih a b hn.2 ha hb fun n hn' => hab n (by simp [hn'])
        | cons_cons _ hb => exact absurd (ha.subset (hx.2 (by simp))) hn.1
      | cons_cons _ ha =>
        cases hb with
        | cons _ hb => exact absurd (hb.subset (hx.1 (by simp))) hn.1
        | cons_cons _ hb =>
          rw [ih _ _ hn.2 ha hb]
          intro n hn'
          have := hab n (by simp [hn'])
          have hne : n ≠ x := by rintro rfl; exact hn.1 hn'
          simpa [hne] using this
  exact key _ a b h2 h3 g3 fun n hn => (h4 n hn).trans (g4 n hn).symm

/-- C65. For a selector that is a tag name, the fast path of `query()` returns what the general path would have returned. -/
theorem C65_tag_fast_path (r : TidyReachable h) {root : Nat} {s : Str} {sel : Sel} {out out' : List Nat} (hst : isSimpleTag U (stripP U.isSpace s) = true)
    (hs : parseSelector U lim s = some sel) (hq : query U lim h root s = some out)
    (hg : (queryFrom h (queryTest U lim h sel) root (.new lim)).1 = .ok out') : out = out' := by
  have w := (reach_inv (tidy_reach r)).wf
  have hh := tidy_host r
  have hs' : parseSelector U lim (stripP U.isSpace s) = some sel := by
    have : parseSelector U lim (stripP U.isSpace s) = parseSelector U lim s := by unfold parseSelector; rw [stripP_stripP]
    rw [this]; exact hs
  have e := parse_simple (stripP_stripP _ _) hst hs'
  have hp : easySel sel := by rw [e]; simp [easySel, easyComplex, easyCompound, easySimples, easySimple]
  have a1 := C43_query_easy_partial r hs hp hq
  have hgot := parseSelector_got hs
  obtain ⟨l, h1, h2, h3⟩ := ((queryFrom_ok w hh selInv_steps trivial (queryTest U lim h sel)
    (fun n => queryTest_of (matchSel_exact (D := lim.maxMatchDepth + 1) (tidy_selHeap r) budget_all (keyInj_of hgot.2.2) _ (Nat.le_refl _) sel
      (parsed_parts hs ⟨trivial, trivial⟩) (.inr trivial) (easy_plainSel sel hp) n)) root) (.new lim) (selInv_new lim)).2.1 out' hg
  exact answers_unique a1 ⟨l, h1, h2, chosen_sub h3, chosen_exact h3 h2⟩

/-! ### Selectors without combinators -/

mutual
theorem easySimple_of : ∀ s : Simple, (∀ name arg i, s = .pseudo name arg i → NoCombinators i) → easySimple s
  | .pseudo name arg i, hs => by rw [easySimple]; exact easySel_of i (hs name arg i rfl)
  | .tag _, _ => by simp [easySimple]
  | .id _, _ => by simp [easySimple]
  | .cls _, _ => by simp [easySimple]
  | .universal, _ => by simp [easySimple]
  | .attr _ _, _ => by simp [easySimple]
theorem easySimples_of : ∀ l : List Simple, (∀ name arg i, .pseudo name arg i ∈ l → NoCombinators i) → easySimples l
  | [], _ => by simp [easySimples]
  | s :: l, hl => by
    rw [easySimples]
    exact ⟨easySimple_of s fun name arg i e => hl name arg i (by simp [e]), easySimples_of l fun name arg i e => hl name arg i (by simp [e])⟩
theorem easyCompound_of : ∀ c : Compound, (∀ name arg i, .pseudo name arg i ∈ c.simples → NoCombinators i) → easyCompound c
  | .mk _ l, hc => by rw [easyCompound]; exact easySimples_of l hc
theorem easyComplex_of : ∀ x : Complex, (∃ c, x = .one c) → (∀ c, PartOf c x → ∀ name arg i, .pseudo name arg i ∈ c.simples → NoCombinators i) → easyComplex x
  | .one c, _, hx => by rw [easyComplex]; exact easyCompound_of c (hx c .one)
  | .comb _ _ _, h1, _ => by obtain ⟨c, e⟩ := h1; cases e
theorem easySel_of : ∀ l : List Complex, NoCombinators l → easySel l
  | [], _ => by simp [easySel]
  | x :: l, hl => by
    rw [easySel]
    refine ⟨easyComplex_of x (hl 0 _ .here x (by simp)) ?_, easySel_of l ?_⟩
    · intro c hc name arg i hs k t ht y hy
      exact hl (k + 1) t (.down (List.mem_cons_self) hc hs ht) y hy
    · intro k t ht y hy
      cases ht with
      | here => exact hl 0 _ .here y (by simp [hy])
      | down g1 g2 g3 g4 => exact hl _ t (.down (List.mem_cons_of_mem _ g1) g2 g3 g4) y hy
end

/-- C66. A selector without combinators (tags, `#id`, `.class`, attribute operators, `:nth-child` and the other pseudo-classes, `:not`, lists) means to
`query()` exactly what it should, on every tree. -/
theorem C66_query_compound_exact (r : TidyReachable h) {root : Nat} {s : Str} {sel : Sel} {out : List Nat} (hs : parseSelector U lim s = some sel)
    (hn : NoCombinators sel) (hq : query U lim h root s = some out) : Answers U (unquoteArg U) h root sel out :=
  C43_query_easy_partial r hs (easySel_of sel hn) hq

/-- C66. The same for `matches()`. -/
theorem C66_matches_compound_exact (r : TidyReachable h) {n : Nat} {s : Str} {sel : Sel} {b : Bool} (hs : parseSelector U lim s = some sel)
    (hn : NoCombinators sel) (hm : selMatches U lim h n s = some b) : b = true ↔ satSel U (unquoteArg U) h sel n := by
  refine C43_matches_exact_partial r hs (fun x hx => ?_) hm
  obtain ⟨c, rfl⟩ := hn 0 sel .here x hx
  refine ⟨trivial, ?_⟩
  have := plainSel_mem (easy_plainSel (U := U) (h := h) (unq := unquoteArg U) sel (easySel_of sel hn)) _ hx
  rw [plainComplex] at this
  exact this

/-! ### Non-trivial cases -/

/-- `<div id=x class="a b"><template><p>t</p></template><p lang=en-GB>one</p> <!--c--> <p>two</p></div>` in a document (0): `div` 1, `template` 2 with contents 3
and `p` 4 with text 5, `p` 6 with text 7, comment 8, `p` 9 with text 10. -/
def orderOps : List DomOp :=
  [.create .document c%"#document" none none [], .create .element c%"div" (some c%"html") none [(c%"id", some c%"x"), (c%"class", some c%"a b")],
   .create .template c%"template" (some c%"html") none [], .create .element c%"p" (some c%"html") none [], .create .text c%"#text" none (some c%"t") [],
   .create .element c%"p" (some c%"html") none [(c%"lang", some c%"en-GB")], .create .text c%"#text" none (some c%"one") [],
   .create .comment c%"#comment" none (some c%"c") [], .create .element c%"p" (some c%"html") none [], .create .text c%"#text" none (some c%"two") [],
   .append 0 1, .append 1 2, .append 3 4, .append 4 5, .append 1 6, .append 6 7, .append 1 8, .append 1 9, .append 9 10]

def orderHeap : Heap := (runDom 20 {} orderOps).getD {}

example : TidyReachable orderHeap := runDom_tidy orderOps (.refl _) (by decide +kernel) (by decide +kernel) (getD_run (by decide +kernel))

example : query Uni.sample {} orderHeap 0 c%"p" = some [4, 6, 9] ∧ query Uni.sample {} orderHeap 0 c%"P, div" = some [1, 4, 6, 9] ∧
    query Uni.sample {} orderHeap 0 c%".a.b, [lang|=en]" = some [1, 6] ∧ query Uni.sample {} orderHeap 0 c%"p:nth-of-type(2n)" = some [9] ∧
    query Uni.sample {} orderHeap 0 c%":comment" = some [8] ∧ query Uni.sample {} orderHeap 0 c%"p:not(:contains('o'))" = some [4] ∧
    query Uni.sample {} orderHeap 0 c%"#x:not(.c)" = some [1] := by decide +kernel

/-- A selector without combinators. -/
example : ∃ sel, parseSelector Uni.sample {} c%"p:not(.a), #x" = some sel ∧ NoCombinators sel := by
  refine ⟨[.one (.mk 1 [.tag c%"p", .pseudo c%"not" (some c%".a") [.one (.mk 0 [.cls c%"a"])]]), .one (.mk 2 [.id c%"x"])], by with_unfolding_all rfl, ?_⟩
  intro k t ht x hx
  cases ht with
  | here =>
    simp only [List.mem_cons, List.not_mem_nil, or_false] at hx
    rcases hx with rfl | rfl
    · exact ⟨_, rfl⟩
    · exact ⟨_, rfl⟩
  | down h1 h2 h3 h4 =>
    simp only [List.mem_cons, List.not_mem_nil, or_false] at h1
    rcases h1 with rfl | rfl
    · cases h2
      simp [Compound.simples] at h3
      obtain ⟨rfl, rfl, rfl⟩ := h3
      cases h4 with
      | here =>
        rw [List.mem_singleton] at hx
        exact ⟨_, hx⟩
      | down g1 g2 g3 g4 =>
        rw [List.mem_singleton] at g1
        subst g1
        cases g2
        simp [Compound.simples] at g3
    · cases h2
      simp [Compound.simples] at h3

end JH
