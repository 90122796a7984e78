import Verif.Lemmas.SelQuery
import Verif.Lemmas.Strings
import Verif.Props.DomForest
/-! C42, C43: selectors mean what CSS says, with two exceptions (F12, F33). -/
namespace JH
open Spec

variable {U : Uni} {lim : SelLimits}

mutual
theorem easy_plainSimple {h : Heap} {unq : Str → Str} : ∀ s, easySimple s → plainSimple U unq h s
  | .pseudo _ _ i, hs => by rw [plainSimple]; rw [easySimple] at hs; exact easy_plainSel i hs
  | .tag _, _ => by simp [plainSimple]
  | .id _, _ => by simp [plainSimple]
  | .cls _, _ => by simp [plainSimple]
  | .universal, _ => by simp [plainSimple]
  | .attr _ _, _ => by simp [plainSimple]
theorem easy_plainSimples {h : Heap} {unq : Str → Str} : ∀ l, easySimples l → plainSimples U unq h l
  | [], _ => by simp [plainSimples]
  | s :: l, hl => by rw [plainSimples]; rw [easySimples] at hl; exact ⟨easy_plainSimple s hl.1, easy_plainSimples l hl.2⟩
theorem easy_plainCompound {h : Heap} {unq : Str → Str} : ∀ c, easyCompound c → plainCompound U unq h c
  | .mk _ l, hc => by rw [plainCompound]; rw [easyCompound] at hc; exact easy_plainSimples l hc
theorem easy_plainComplex {h : Heap} {unq : Str → Str} : ∀ x, easyComplex x → plainComplex U unq h x
  | .one c, hx => by rw [plainComplex]; rw [easyComplex] at hx; exact easy_plainCompound c hx
  | .comb l o c, hx => by
    rw [plainComplex]
    rw [easyComplex] at hx
    exact ⟨easy_plainComplex l hx.1, easy_plainCompound c hx.2.1,
      ⟨fun e => absurd e hx.2.2.1, fun e o' ho' e' => hx.2.2.2 e (by rw [ho', e'])⟩, fun e => absurd e hx.2.2.1⟩
theorem easy_plainSel {h : Heap} {unq : Str → Str} : ∀ l, easySel l → plainSel U unq h l
  | [], _ => by simp [plainSel]
  | x :: l, hl => by rw [plainSel]; rw [easySel] at hl; exact ⟨easy_plainComplex x hl.1, easy_plainSel l hl.2⟩
end

theorem easy_plainInside {h : Heap} {unq : Str → Str} (x : Complex) (hx : easyInside x) : plainInside U unq h x := by
  induction x using complex_ind with
  | h1 c => exact easy_plainCompound c hx
  | h2 l o c ih => exact ⟨ih hx.1, easy_plainCompound c hx.2⟩

theorem tidy_selHeap {h : Heap} (r : TidyReachable h) : SelHeap h := selHeap_of (reach_inv (tidy_reach r)).wf (tidy_host r)

theorem budget_all : Budget (fun _ : SErr => True) := ⟨trivial, trivial⟩

theorem toOption_ok {ε α : Type} {x : Except ε α} {a : α} (h : x.toOption = some a) : x = .ok a := by
  cases x with
  | error e => cases h
  | ok b => cases h; rfl

/-- What `matches()` does with the parsed selector. -/
theorem selMatches_run {h : Heap} {n : Nat} {s : Str} {sel : Sel} {b : Bool} (hs : parseSelector U lim s = some sel) (hm : selMatches U lim h n s = some b) :
    (matchSel U h (lim.maxMatchDepth + 1) sel n (.new lim)).1 = .ok b := by
  unfold selMatches at hm
  rw [hs] at hm
  exact toOption_ok hm

/-- C42, unless an argument of `:not` has choices to undo: whenever `matches()` returns true, ancestors and siblings can be assigned to the parts of the
selector as CSS demands. -/
theorem C42_matches_sound_partial {h : Heap} (r : TidyReachable h) {n : Nat} {s : Str} {sel : Sel} (hs : parseSelector U lim s = some sel)
    (hp : ∀ x ∈ sel, plainInside U (unquoteArg U) h x) (hm : selMatches U lim h n s = some true) : satSel U (unquoteArg U) h sel n := by
  have hg := parseSelector_got hs
  exact ((matchSel_sound (D := lim.maxMatchDepth) (tidy_selHeap r) budget_all (keyInj_of hg.2.2) sel (parsed_parts hs ⟨trivial, trivial⟩) (.inr trivial) hp n)
    (.new lim) (selInv_new lim)).2.1 true (selMatches_run hs hm) rfl

/-- C43, for chains that need no choice to be undone: `matches()` says exactly what CSS says. -/
theorem C43_matches_exact_partial {h : Heap} (r : TidyReachable h) {n : Nat} {s : Str} {sel : Sel} {b : Bool} (hs : parseSelector U lim s = some sel)
    (hp : ∀ x ∈ sel, forwardChain x ∧ plainInside U (unquoteArg U) h x) (hm : selMatches U lim h n s = some b) :
    b = true ↔ satSel U (unquoteArg U) h sel n := by
  have hg := parseSelector_got hs
  exact ((matchSel_fresh (tidy_selHeap r) budget_all (keyInj_of hg.2.2) lim.maxMatchDepth sel (parsed_parts hs ⟨trivial, trivial⟩) (.inr trivial)
    (fun x hx => (hp x hx).symm) (selKeys_nodup hg.2.2).1 n) (.new lim) ⟨selInv_new lim, fun _ _ _ => rfl⟩).1 b (selMatches_run hs hm) |>.2

/-- C43, read off the text: descendant combinators only to the right of nothing but descendant combinators, no `~` right after a `+`, and neither inside
`:not`. -/
theorem C43_matches_easy_partial {h : Heap} (r : TidyReachable h) {n : Nat} {s : Str} {sel : Sel} {b : Bool} (hs : parseSelector U lim s = some sel)
    (hp : ∀ x ∈ sel, forwardChain x ∧ easyInside x) (hm : selMatches U lim h n s = some b) : b = true ↔ satSel U (unquoteArg U) h sel n :=
  C43_matches_exact_partial r hs (fun x hx => ⟨(hp x hx).1, easy_plainInside x (hp x hx).2⟩) hm

/-- What `query()` does, the fast path included. -/
theorem query_run {h : Heap} {root : Nat} {s : Str} {sel : Sel} {out : List Nat} (hs : parseSelector U lim s = some sel) (hq : query U lim h root s = some out) :
    (∃ t k, sel = [.one (.mk k [.tag t])] ∧ (queryFrom h (tagTest U h t) root (.new lim)).1 = .ok out) ∨
      (queryFrom h (queryTest U lim h sel) root (.new lim)).1 = .ok out := by
  have hs' : parseSelector U lim (stripP U.isSpace s) = some sel := by
    have : parseSelector U lim (stripP U.isSpace s) = parseSelector U lim s := by
      unfold parseSelector
      rw [stripP_stripP]
    rw [this]; exact hs
  unfold query at hq
  dsimp only at hq
  split at hq
  · cases hq
  · split at hq
    · cases hq
    · split at hq
      · rename_i hst
        exact .inl ⟨_, 0, parse_simple (stripP_stripP _ _) hst hs', toOption_ok hq⟩
      · rw [hs'] at hq
        exact .inr (toOption_ok hq)

theorem no_comments_tag (t : Str) (k : Nat) : ¬ AsksComments [.one (.mk k [.tag t])] := by
  rw [← allows_iff]
  simp [allowsNonElements, Complex.allowsNon, Compound.simples, Simple.isComment]

/-- C42, unless an argument of `:not` has choices to undo: every node that `query()` returns is below the root and matches as CSS demands; no node is
returned twice, and they come in document order. -/
theorem C42_query_sound_partial {h : Heap} (r : TidyReachable h) {root : Nat} {s : Str} {sel : Sel} {out : List Nat} (hs : parseSelector U lim s = some sel)
    (hp : ∀ x ∈ sel, plainInside U (unquoteArg U) h x) (hq : query U lim h root s = some out) :
    ∃ l, Preorder h (under h root) l ∧ l.Nodup ∧ out.Sublist l ∧ ∀ n ∈ out, (Elem h n ∨ AsksComments sel) ∧ satSel U (unquoteArg U) h sel n := by
  have w := (reach_inv (tidy_reach r)).wf
  have hh := tidy_host r
  rcases query_run hs hq with ⟨t, k, rfl, hq⟩ | hq
  · obtain ⟨l, h1, h2, h3⟩ := ((queryFrom_ok w hh (I := fun _ => True) (E := fun _ => True) (fun _ _ _ => trivial) trivial (tagTest U h t)
      (fun n => tagTest_exact (unquoteArg U) t k n) root) (.new lim) trivial).2.1 out hq
    exact ⟨l, h1, h2, chosen_sub h3, fun n hn => (chosen_sound h3 n hn).1 rfl⟩
  · have hg := parseSelector_got hs
    obtain ⟨l, h1, h2, h3⟩ := ((queryFrom_ok w hh selInv_steps trivial (queryTest U lim h sel)
      (fun n => queryTest_sound (matchSel_sound (D := lim.maxMatchDepth) (tidy_selHeap r) budget_all (keyInj_of hg.2.2) sel (parsed_parts hs ⟨trivial, trivial⟩)
        (.inr trivial) hp n)) root) (.new lim) (selInv_new lim)).2.1 out hq
    exact ⟨l, h1, h2, chosen_sub h3, fun n hn => chosen_sound h3 n hn rfl⟩

/-- C43, for selectors that need no choice to be undone and whose descendant combinators have no node that matches on both sides: `query()` returns exactly
the nodes that CSS says, in document order. -/
theorem C43_query_exact_partial {h : Heap} (r : TidyReachable h) {root : Nat} {s : Str} {sel : Sel} {out : List Nat} (hs : parseSelector U lim s = some sel)
    (hp : plainSel U (unquoteArg U) h sel) (hq : query U lim h root s = some out) : Answers U (unquoteArg U) h root sel out := by
  have w := (reach_inv (tidy_reach r)).wf
  have hh := tidy_host r
  rcases query_run hs hq with ⟨t, k, rfl, hq⟩ | hq
  · obtain ⟨l, h1, h2, h3⟩ := ((queryFrom_ok w hh (I := fun _ => True) (E := fun _ => True) (fun _ _ _ => trivial) trivial (tagTest U h t)
      (fun n => tagTest_exact (unquoteArg U) t k n) root) (.new lim) trivial).2.1 out hq
    exact ⟨l, h1, h2, chosen_sub h3, chosen_exact h3 h2⟩
  · have hg := parseSelector_got hs
    obtain ⟨l, h1, h2, h3⟩ := ((queryFrom_ok w hh selInv_steps trivial (queryTest U lim h sel)
      (fun n => queryTest_of (matchSel_exact (D := lim.maxMatchDepth + 1) (tidy_selHeap r) budget_all (keyInj_of hg.2.2) _ (Nat.le_refl _) sel
        (parsed_parts hs ⟨trivial, trivial⟩) (.inr trivial) hp n)) root) (.new lim) (selInv_new lim)).2.1 out hq
    exact ⟨l, h1, h2, chosen_sub h3, chosen_exact h3 h2⟩

/-- C43, read off the text: without descendant combinators and without `~` right after a `+`, `query()` is exact on every tree. -/
theorem C43_query_easy_partial {h : Heap} (r : TidyReachable h) {root : Nat} {s : Str} {sel : Sel} {out : List Nat} (hs : parseSelector U lim s = some sel)
    (hp : easySel sel) (hq : query U lim h root s = some out) : Answers U (unquoteArg U) h root sel out :=
  C43_query_exact_partial r hs (easy_plainSel sel hp) hq

/-! ### A tree for the counterexamples -/

/-- `<p><i></i><b><b><u></u></b></b><b></b><u></u></p>` in a document (0); `p` is 1, `i` 2, the `b` 3, 4 and 6, the `u` 5 and 7. -/
def greedyOps : List DomOp :=
  [.create .document c%"#document" none none [], .create .element c%"p" (some c%"html") none [], .create .element c%"i" (some c%"html") none [],
   .create .element c%"b" (some c%"html") none [], .create .element c%"b" (some c%"html") none [], .create .element c%"u" (some c%"html") none [],
   .create .element c%"b" (some c%"html") none [], .create .element c%"u" (some c%"html") none [],
   .append 0 1, .append 1 2, .append 1 3, .append 3 4, .append 4 5, .append 1 6, .append 1 7]

def greedyHeap : Heap := (runDom 20 {} greedyOps).getD {}

theorem getD_run {fuel : Nat} {ops : List DomOp} (h : (runDom fuel {} ops).isSome = true) : runDom fuel {} ops = some ((runDom fuel {} ops).getD {}) := by
  rcases hr : runDom fuel {} ops with _ | x
  · rw [hr] at h; cases h
  · rfl

theorem greedy_tidy : TidyReachable greedyHeap :=
  runDom_tidy greedyOps (.refl _) (by decide +kernel) (by decide +kernel) (getD_run (by decide +kernel))

/-- The node is an element with that tag. -/
theorem sat_tag {unq : Str → Str} {h : Heap} {n k : Nat} {t : Str} (h1 : (h.obj n).name = t) (h2 : t.head? ≠ some '#') : satCompound U unq h (.mk k [.tag t]) n := by
  rw [satCompound, satSimples, satSimple, satSimples]
  exact ⟨⟨by unfold Elem; rw [h1]; exact h2, .inl h1⟩, trivial⟩

/-- `p > b u` and the like. -/
def chain3 (a : Str) (o : Comb) (b : Str) (o' : Comb) (c : Str) : Sel :=
  [.comb (.comb (.one (.mk 0 [.tag a])) o (.mk 1 [.tag b])) o' (.mk 2 [.tag c])]

theorem sat_chain3 {unq : Str → Str} {h : Heap} {a b c : Str} {o o' : Comb} {x y z : Nat} (hx : (h.obj x).name = a) (hy : (h.obj y).name = b) (hz : (h.obj z).name = c)
    (ha : a.head? ≠ some '#') (hb : b.head? ≠ some '#') (hc : c.head? ≠ some '#') (h1 : Related h o x y) (h2 : Related h o' y z) :
    satSel U unq h (chain3 a o b o' c) z := by
  rw [chain3, satSel, satComplex]
  refine .inl ⟨sat_tag hz hc, y, h2, ?_⟩
  rw [satComplex]
  refine ⟨sat_tag hy hb, x, h1, ?_⟩
  rw [satComplex]
  exact sat_tag hx ha

theorem greedy_above : Above greedyHeap 3 5 := .up (p := 4) (by decide +kernel) (.parent (by decide +kernel))

theorem greedy_next : Related greedyHeap .adj 2 3 :=
  ⟨by decide +kernel, 1, [], [], [6, 7], by decide +kernel, nofun⟩

/-- C43 is false for chains where the closest candidate is not the right one: `matches()` returns false for `p > b u`, `i + b u`, `i ~ b u` and `i + b ~ u`,
although CSS says that the node matches. -/
theorem C43_greedy_fails : TidyReachable greedyHeap ∧
    (parseSelector Uni.sample {} c%"p > b u" = some (chain3 c%"p" .child c%"b" .desc c%"u") ∧ selMatches Uni.sample {} greedyHeap 5 c%"p > b u" = some false ∧
      satSel Uni.sample (unquoteArg Uni.sample) greedyHeap (chain3 c%"p" .child c%"b" .desc c%"u") 5) ∧
    (parseSelector Uni.sample {} c%"i + b u" = some (chain3 c%"i" .adj c%"b" .desc c%"u") ∧ selMatches Uni.sample {} greedyHeap 5 c%"i + b u" = some false ∧
      satSel Uni.sample (unquoteArg Uni.sample) greedyHeap (chain3 c%"i" .adj c%"b" .desc c%"u") 5) ∧
    (parseSelector Uni.sample {} c%"i ~ b u" = some (chain3 c%"i" .sib c%"b" .desc c%"u") ∧ selMatches Uni.sample {} greedyHeap 5 c%"i ~ b u" = some false ∧
      satSel Uni.sample (unquoteArg Uni.sample) greedyHeap (chain3 c%"i" .sib c%"b" .desc c%"u") 5) ∧
    (parseSelector Uni.sample {} c%"i + b ~ u" = some (chain3 c%"i" .adj c%"b" .sib c%"u") ∧ selMatches Uni.sample {} greedyHeap 7 c%"i + b ~ u" = some false ∧
      satSel Uni.sample (unquoteArg Uni.sample) greedyHeap (chain3 c%"i" .adj c%"b" .sib c%"u") 7) := by
  refine ⟨greedy_tidy, ⟨rfl, by decide +kernel, ?_⟩, ⟨rfl, by decide +kernel, ?_⟩, ⟨rfl, by decide +kernel, ?_⟩, ⟨rfl, by decide +kernel, ?_⟩⟩
  · exact sat_chain3 (x := 1) (y := 3) (by decide +kernel) (by decide +kernel) (by decide +kernel) (by decide +kernel) (by decide +kernel) (by decide +kernel) (by show _ = _; decide) greedy_above
  · exact sat_chain3 (x := 2) (y := 3) (by decide +kernel) (by decide +kernel) (by decide +kernel) (by decide +kernel) (by decide +kernel) (by decide +kernel) greedy_next greedy_above
  · exact sat_chain3 (x := 2) (y := 3) (by decide +kernel) (by decide +kernel) (by decide +kernel) (by decide +kernel) (by decide +kernel) (by decide +kernel) ⟨by decide +kernel, 1, [], [], [6, 7], by decide +kernel⟩ greedy_above
  · exact sat_chain3 (x := 2) (y := 3) (by decide +kernel) (by decide +kernel) (by decide +kernel) (by decide +kernel) (by decide +kernel) (by decide +kernel) greedy_next ⟨by decide +kernel, 1, [2], [6], [], by decide +kernel⟩

/-- What `:not` says. -/
theorem sat_not {unq : Str → Str} {h : Heap} {n : Nat} {a : Str} {inner : Sel} (ha : a ≠ []) :
    satSimple U unq h (.pseudo c%"not" (some a) inner) n ↔ ¬ satSel U unq h inner n := by
  rw [satSimple, PseudoHolds]
  simp [ha]

/-- C42 is false for such a chain inside `:not`: `u:not(p > b u)` matches a node that `p > b u` describes. -/
theorem C42_not_fails : ∃ sel, parseSelector Uni.sample {} c%"u:not(p > b u)" = some sel ∧
    selMatches Uni.sample {} greedyHeap 5 c%"u:not(p > b u)" = some true ∧ ¬ satSel Uni.sample (unquoteArg Uni.sample) greedyHeap sel 5 := by
  refine ⟨[.one (.mk 3 [.tag c%"u", .pseudo c%"not" (some c%"p > b u") (chain3 c%"p" .child c%"b" .desc c%"u")])],
    by with_unfolding_all rfl, by decide +kernel, ?_⟩
  intro hs
  rw [satSel, satSel, satComplex, satCompound, satSimples, satSimples, sat_not (by decide)] at hs
  rcases hs with ⟨_, hs, _⟩ | hs
  · exact hs C43_greedy_fails.2.1.2.2
  · exact hs

/-- `<div><div></div></div>` in a document (0). -/
def nestOps : List DomOp :=
  [.create .document c%"#document" none none [], .create .element c%"div" (some c%"html") none [], .create .element c%"div" (some c%"html") none [],
   .append 0 1, .append 1 2]

def nestHeap : Heap := (runDom 20 {} nestOps).getD {}

theorem nest_tidy : TidyReachable nestHeap := runDom_tidy nestOps (.refl _) (by decide +kernel) (by decide +kernel) (getD_run (by decide +kernel))

theorem nest_order : Preorder nestHeap (under nestHeap 0) [1, 2] := by
  have e0 : under nestHeap 0 = [1] := by decide +kernel
  have e1 : under nestHeap 1 = [2] := by decide +kernel
  have e2 : under nestHeap 2 = [] := by decide +kernel
  rw [e0]
  refine .cons (n := 1) (l := []) (a := [2]) (b := []) ?_ .nil
  rw [e1]
  refine .cons (n := 2) (l := []) (a := []) (b := []) ?_ .nil
  rw [e2]
  exact .nil

/-- C43 is false where a node matches on both sides of a descendant combinator: `query("div div")` on nested `div` elements returns nothing, although
`matches(inner, "div div")` is true. -/
theorem C43_cache_fails : ∃ sel, parseSelector Uni.sample {} c%"div div" = some sel ∧ query Uni.sample {} nestHeap 0 c%"div div" = some [] ∧
    selMatches Uni.sample {} nestHeap 2 c%"div div" = some true ∧ ¬ Answers Uni.sample (unquoteArg Uni.sample) nestHeap 0 sel [] := by
  refine ⟨[.comb (.one (.mk 0 [.tag c%"div"])) .desc (.mk 1 [.tag c%"div"])], rfl, by decide +kernel, by decide +kernel, ?_⟩
  rintro ⟨l, hl, _, _, h4⟩
  have e := preorder_unique hl nest_order
  subst e
  refine absurd ((h4 2 (by simp)).2 ⟨.inl (by decide +kernel), ?_⟩) (by simp)
  rw [satSel, satComplex]
  refine .inl ⟨sat_tag (by decide +kernel) (by decide +kernel), 1, .parent (by decide +kernel), ?_⟩
  rw [satComplex]
  exact sat_tag (by decide +kernel) (by decide +kernel)

/-- C42 fails for the same reason inside `:not`: `query("div:not(div div)")` returns the inner `div`, too. -/
theorem C42_cache_fails : ∃ sel, parseSelector Uni.sample {} c%"div:not(div div)" = some sel ∧
    query Uni.sample {} nestHeap 0 c%"div:not(div div)" = some [1, 2] ∧ ¬ satSel Uni.sample (unquoteArg Uni.sample) nestHeap sel 2 := by
  refine ⟨[.one (.mk 2 [.tag c%"div", .pseudo c%"not" (some c%"div div") [.comb (.one (.mk 0 [.tag c%"div"])) .desc (.mk 1 [.tag c%"div"])]])],
    by with_unfolding_all rfl, by decide +kernel, ?_⟩
  intro hs
  rw [satSel, satSel, satComplex, satCompound, satSimples, satSimples, sat_not (by decide)] at hs
  rcases hs with ⟨_, hs, _⟩ | hs
  · apply hs
    rw [satSel, satComplex]
    refine .inl ⟨sat_tag (by decide +kernel) (by decide), 1, .parent (by decide +kernel), ?_⟩
    rw [satComplex]
    exact sat_tag (by decide +kernel) (by decide)
  · exact hs

/-! ### Non-trivial cases that meet the hypotheses -/

/-- A descendant combinator, matched exactly by `matches()`. -/
example : (parseSelector Uni.sample {} c%"p b > u" = some (chain3 c%"p" .desc c%"b" .child c%"u")) ∧
    (∀ x ∈ chain3 c%"p" .desc c%"b" .child c%"u", forwardChain x ∧ easyInside x) ∧ selMatches Uni.sample {} greedyHeap 5 c%"p b > u" = some true ∧
    selMatches Uni.sample {} greedyHeap 7 c%"p b > u" = some false := by
  refine ⟨rfl, ?_, by decide +kernel, by decide +kernel⟩
  intro x hx
  rw [chain3, List.mem_singleton] at hx
  subst hx
  simp [forwardChain, Forward, lastComb, easyInside, easyCompound, easySimples, easySimple]

/-- Child combinators, `:not` and a list, matched exactly by `query()`. -/
example : ∃ sel, parseSelector Uni.sample {} c%"p > b:not(i + b), u" = some sel ∧ easySel sel ∧
    query Uni.sample {} greedyHeap 0 c%"p > b:not(i + b), u" = some [5, 6, 7] := by
  refine ⟨[.comb (.one (.mk 0 [.tag c%"p"])) .child (.mk 3 [.tag c%"b", .pseudo c%"not" (some c%"i + b") [.comb (.one (.mk 1 [.tag c%"i"])) .adj (.mk 2 [.tag c%"b"])]]),
    .one (.mk 4 [.tag c%"u"])], by with_unfolding_all rfl, ?_, by decide +kernel⟩
  simp [easySel, easyComplex, easyCompound, easySimples, easySimple, lastComb]

/-- A descendant combinator, matched exactly by `query()`. -/
example : ∃ sel, parseSelector Uni.sample {} c%"b u" = some sel ∧ plainSel Uni.sample (unquoteArg Uni.sample) greedyHeap sel ∧
    query Uni.sample {} greedyHeap 0 c%"b u" = some [5] := by
  refine ⟨[.comb (.one (.mk 0 [.tag c%"b"])) .desc (.mk 1 [.tag c%"u"])], rfl, ?_, by decide +kernel⟩
  simp only [plainSel, plainComplex, plainCompound, plainSimples, plainSimple, Forward, lastComb, satCompound, satSimples, satSimple, Complex.last, true_and, and_true]
  refine ⟨⟨fun _ _ => nofun, fun _ _ => nofun⟩, ?_⟩
  rintro _ n ⟨⟨h1, h2⟩, h3, h4⟩
  have e1 : Uni.sample.lower c%"b" = c%"b" := by decide +kernel
  have e2 : Uni.sample.lower c%"u" = c%"u" := by decide +kernel
  rcases h2 with h2 | h2 <;> rcases h4 with h4 | h4
  · exact absurd (h2.symm.trans h4) (by decide)
  · rw [h2, e1] at h4; exact absurd h4 (by decide)
  · rw [h4, e2] at h2; exact absurd h2 (by decide)
  · exact absurd (h2.symm.trans h4) (by decide)

end JH
