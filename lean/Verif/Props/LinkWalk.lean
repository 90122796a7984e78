import Verif.Props.Linkify

/-! C47, C69: the Linkify transform on a tree. -/
namespace JH
open Spec

theorem plainTextL_append (a b : List Node) : plainTextL (a ++ b) = plainTextL a ++ plainTextL b := by
  induction a with
  | nil => rfl
  | cons n a ih => rw [List.cons_append, plainTextL, plainTextL, ih, List.append_assoc]

theorem plainText_anchor (ns : Str) (m : LinkMatch) : plainText (anchor ns m) = m.text := by
  simp [anchor, plainText, plainTextL]

/-- The pieces from a cursor on. -/
theorem linkPieces_cut (ns d : Str) : ∀ (ms : List LinkMatch) (k : Nat), (∀ m ∈ ms, ExactMatch d m) →
    ms.Pairwise (fun a b => a.stop ≤ b.start) → (∀ m ∈ ms, k ≤ m.start) →
    plainTextL (linkPieces ns d k ms) = d.drop k ∧
    (∀ p ∈ linkPieces ns d k ms, (∃ t, p = .text t ∧ t ≠ []) ∨ ∃ m ∈ ms, p = anchor ns m) ∧
    (linkPieces ns d k ms).filter (fun p => match p with | .elem .. => true | _ => false) = ms.map (anchor ns) ∧
    ∀ l m r, linkPieces ns d k ms = l ++ anchor ns m :: r → ∃ m' ∈ ms, anchor ns m' = anchor ns m ∧ k + (plainTextL l).length = m'.start := by
  intro ms
  induction ms with
  | nil =>
    intro k _ _ _
    rw [linkPieces]
    split
    · rename_i hk
      refine ⟨by simp [plainTextL, plainText], ?_, rfl, ?_⟩
      · intro p hp
        rw [List.mem_singleton] at hp
        refine .inl ⟨_, hp, ?_⟩
        rw [ne_eq, List.drop_eq_nil_iff]
        omega
      · intro l m r h
        exfalso
        cases l with
        | nil => simp [anchor] at h
        | cons x l => simp at h
    · rename_i hk
      refine ⟨?_, by simp, rfl, by simp⟩
      rw [plainTextL, List.drop_eq_nil_of_le (by omega)]
  | cons m ms ih =>
    intro k hex hpw hk
    obtain ⟨hlt, hle, htx⟩ := hex m (by simp)
    have hkm := hk m (by simp)
    obtain ⟨hp1, hp2⟩ := List.pairwise_cons.1 hpw
    obtain ⟨i1, i2, i3, i4⟩ := ih m.stop (fun x hx => hex x (by simp [hx])) hp2 hp1
    rw [linkPieces]
    have hanchor : linkNode ns m = anchor ns m := rfl
    rw [hanchor]
    generalize hopt : (if m.start > k then [Node.text ((d.drop k).take (m.start - k))] else []) = opt
    have ho : plainTextL opt = (d.drop k).take (m.start - k) ∧ (∀ p ∈ opt, ∃ t, p = Node.text t ∧ t ≠ []) := by
      rw [← hopt]
      split
      · refine ⟨by simp [plainTextL, plainText], ?_⟩
        intro p hp
        rw [List.mem_singleton] at hp
        refine ⟨_, hp, ?_⟩
        intro he
        have := congrArg List.length he
        simp only [List.length_take, List.length_drop, List.length_nil] at this
        omega
      · have : m.start - k = 0 := by omega
        rw [this]
        exact ⟨by simp [plainTextL], by simp⟩
    have hlen : (plainTextL opt).length = m.start - k := by
      rw [ho.1, List.length_take, List.length_drop]; omega
    have hmlen : m.text.length = m.stop - m.start := by
      rw [htx, slice, List.length_drop, List.length_take]; omega
    refine ⟨?_, ?_, ?_, ?_⟩
    · rw [plainTextL_append, plainTextL, plainText_anchor, i1, ho.1, htx, slice, List.drop_take]
      have h1 : d.drop m.start = (d.drop k).drop (m.start - k) := by rw [List.drop_drop]; congr 1; omega
      have h2 : d.drop m.stop = ((d.drop k).drop (m.start - k)).drop (m.stop - m.start) := by
        rw [List.drop_drop, List.drop_drop]; congr 1; omega
      rw [h1, h2, List.take_append_drop, List.take_append_drop]
    · intro p hp
      rcases List.mem_append.1 hp with hp | hp
      · exact .inl (ho.2 p hp)
      · rcases List.mem_cons.1 hp with rfl | hp
        · exact .inr ⟨m, by simp, rfl⟩
        · rcases i2 p hp with h | ⟨x, hx, he⟩
          · exact .inl h
          · exact .inr ⟨x, by simp [hx], he⟩
    · rw [List.filter_append]
      have h0 : opt.filter (fun p => match p with | .elem .. => true | _ => false) = [] := by
        refine List.filter_eq_nil_iff.2 fun p hp => ?_
        obtain ⟨t, rfl, _⟩ := ho.2 p hp
        simp
      rw [h0, List.nil_append, List.filter_cons_of_pos (by simp [anchor]), i3, List.map_cons]
    · intro l m0 r h
      rcases List.append_eq_append_iff.1 h with ⟨x, hx1, hx2⟩ | ⟨x, hx1, hx2⟩
      · -- `l` is at least the optional text
        cases x with
        | nil =>
          rw [List.append_nil] at hx1
          simp only [List.nil_append, List.cons.injEq] at hx2
          refine ⟨m, by simp, hx2.1, ?_⟩
          rw [hx1, hlen]; omega
        | cons y x =>
          simp only [List.cons_append, List.cons.injEq] at hx2
          obtain ⟨m', hm', he, hs⟩ := i4 x m0 r hx2.2
          refine ⟨m', by simp [hm'], he, ?_⟩
          rw [hx1, plainTextL_append, ← hx2.1, plainTextL, plainText_anchor, List.length_append, List.length_append, hlen, hmlen]
          omega
      · -- the anchor would be inside the optional text
        cases x with
        | nil =>
          rw [List.append_nil] at hx1
          simp only [List.nil_append, List.cons.injEq] at hx2
          refine ⟨m, by simp, hx2.1.symm, ?_⟩
          rw [← hx1, hlen]; omega
        | cons y x =>
          exfalso
          simp only [List.cons_append, List.cons.injEq] at hx2
          obtain ⟨t, ht, _⟩ := ho.2 y (by rw [hx1]; simp)
          rw [← hx2.1] at ht
          simp [anchor] at ht

/-- Put nodes before the outcome of a walk. -/
def Walked.prepend (ps : List Node) : Walked → Walked
  | .done ks => .done (ps ++ ks)
  | w => w

theorem lower_a (E : LinkEnv) : E.U.lower c%"a" = c%"a" := by
  rw [E.U.lower_ascii _ (by decide)]; decide

/-- Marked pieces are left as they are when `a` is a skip tag. -/
theorem linkWalk_pieces (E : LinkEnv) (cfg : LinkCfg) (skip : List Str) (ha : c%"a" ∈ skip) (ns : Option Str) (off : Bool) (ns' : Str)
    (rest : List (Bool × Node)) (f : Nat) (hf : 2 ≤ f) : ∀ ps : List Node,
    (∀ p ∈ ps, (∃ t, p = .text t ∧ t ≠ []) ∨ ∃ m, p = anchor ns' m) →
    linkWalk E cfg skip ns (f + ps.length) off (ps.map (fun n => (true, n)) ++ rest) =
      Walked.prepend ps (linkWalk E cfg skip ns f off rest) := by
  intro ps
  induction ps with
  | nil => intro _; simp only [List.map_nil, List.nil_append, List.length_nil, Nat.add_zero]; cases linkWalk E cfg skip ns f off rest <;> rfl
  | cons p ps ih =>
    intro hp
    have ih' := ih fun q hq => hp q (by simp [hq])
    have hlen : f + (p :: ps).length = (f + ps.length) + 1 := by simp; omega
    rw [hlen, List.map_cons, List.cons_append]
    rcases hp p (by simp) with ⟨t, rfl, _⟩ | ⟨m, rfl⟩
    · rw [linkWalk]
      simp only [Bool.true_or, if_true]
      rw [ih']
      cases linkWalk E cfg skip ns f off rest <;> rfl
    · rw [anchor, linkWalk]
      have hs : (off || skip.contains (E.U.lower c%"a")) = true := by
        rw [lower_a]; simp [ha]
      rw [hs]
      have hin : linkWalk E cfg skip (some ns') (f + ps.length) true ([Node.text m.text].map fun n => (false, n)) = .done [.text m.text] := by
        obtain ⟨g, hg⟩ : ∃ g, f + ps.length = g + 2 := ⟨f + ps.length - 2, by omega⟩
        rw [hg, List.map_cons, List.map_nil, linkWalk]
        simp only [Bool.or_true, Bool.true_or, if_true]
        rw [linkWalk]
      rw [hin]
      simp only [Bool.false_eq_true, if_false]
      rw [ih']
      cases linkWalk E cfg skip ns f off rest <;> rfl

/-- What a walk may end with. -/
def LinkOutcome (E : LinkEnv) (cfg : LinkCfg) (skip : List Str) (ns : Option Str) (off : Bool) (l : List Node) (w : Walked) : Prop :=
  (∃ ks, w = .done ks ∧ Linkified E cfg skip ns off l ks) ∨
    (w = .raised ∧ ∃ d ∈ openTextsL E.U skip off l, findLinks E cfg d = .error ())

theorem candRe_nil (U : Uni) : (candRe U).ends [] = [] := rfl

theorem linkWalk_total (E : LinkEnv) (cfg : LinkCfg) (skip : List Str) (ha : c%"a" ∈ skip) : ∀ (n : Nat) (l : List Node),
    Node.sizeL l ≤ n → ∀ (ns : Option Str) (off : Bool), ∃ N w, (∀ fuel, N ≤ fuel →
      linkWalk E cfg skip ns fuel off (l.map fun x => (false, x)) = w) ∧ LinkOutcome E cfg skip ns off l w := by
  intro n
  induction n with
  | zero =>
    intro l hl ns off
    cases l with
    | nil =>
      refine ⟨1, .done [], fun fuel hf => ?_, .inl ⟨[], rfl, .nil⟩⟩
      obtain ⟨g, rfl⟩ : ∃ g, fuel = g + 1 := ⟨fuel - 1, by omega⟩
      rw [List.map_nil, linkWalk]
    | cons x l => exfalso; rw [Node.sizeL] at hl; cases x <;> simp [Node.size] at hl
  | succ n ih =>
    intro l hl ns off
    cases l with
    | nil =>
      refine ⟨1, .done [], fun fuel hf => ?_, .inl ⟨[], rfl, .nil⟩⟩
      obtain ⟨g, rfl⟩ : ∃ g, fuel = g + 1 := ⟨fuel - 1, by omega⟩
      rw [List.map_nil, linkWalk]
    | cons x l =>
      rw [Node.sizeL] at hl
      have hx : 0 < x.size := by cases x <;> simp [Node.size] <;> omega
      obtain ⟨N, w, hw, ho⟩ := ih l (by omega) ns off
      -- an unchanged first node
      have keep : ∀ (M : Nat) (y : Node), (∀ fuel, M ≤ fuel → linkWalk E cfg skip ns (fuel + 1) off ((x :: l).map fun z => (false, z)) =
          Walked.prepend [y] (linkWalk E cfg skip ns fuel off (l.map fun z => (false, z)))) →
          (∀ ks, Linkified E cfg skip ns off l ks → Linkified E cfg skip ns off (x :: l) (y :: ks)) →
          ∃ N w, (∀ fuel, N ≤ fuel → linkWalk E cfg skip ns fuel off ((x :: l).map fun x => (false, x)) = w) ∧
            LinkOutcome E cfg skip ns off (x :: l) w := by
        intro M y hy hrel
        refine ⟨N + M + 1, Walked.prepend [y] w, fun fuel hf => ?_, ?_⟩
        · obtain ⟨g, rfl⟩ : ∃ g, fuel = g + 1 := ⟨fuel - 1, by omega⟩
          rw [hy g (by omega), hw g (by omega)]
        · rcases ho with ⟨ks, rfl, hk⟩ | ⟨rfl, d, hd, he⟩
          · exact .inl ⟨y :: ks, rfl, hrel ks hk⟩
          · exact .inr ⟨rfl, d, by rw [openTextsL]; exact List.mem_append_right _ hd, he⟩
      cases x with
      | text d =>
        by_cases hoff : off = true
        · subst hoff
          refine keep 0 (.text d) (fun fuel _ => ?_) (fun ks hk => .skipped hk)
          rw [List.map_cons, linkWalk]
          simp only [Bool.false_or, Bool.true_or, if_true]
          cases linkWalk E cfg skip ns fuel true (l.map fun z => (false, z)) <;> rfl
        · have hoff' : off = false := by simpa using hoff
          subst hoff'
          by_cases hd : d = []
          · subst hd
            have hf : findLinks E cfg [] = .ok [] := by
              rw [findLinks]
              have : cands E.U [] = [] := by
                rw [cands]
                show candsGo E.U 1 0 ['\n'] = []
                rw [candsGo]
                rw [candRe_nil, show (if boundaryC '\n' = true then ([] : List Str).head? else none) = none from rfl]
                rfl
              rw [this]
              rfl
            refine keep 0 (.text []) (fun fuel _ => ?_) (fun ks hk => .plain hf hk)
            rw [List.map_cons, linkWalk]
            simp only [List.isEmpty_nil, Bool.or_true, if_true]
            cases linkWalk E cfg skip ns fuel false (l.map fun z => (false, z)) <;> rfl
          · have hcond : (false || false || d.isEmpty) = false := by simpa using hd
            cases hfl : findLinks E cfg d with
            | error e =>
              refine ⟨1, .raised, fun fuel hf => ?_, .inr ⟨rfl, d, ?_, hfl⟩⟩
              · obtain ⟨g, rfl⟩ : ∃ g, fuel = g + 1 := ⟨fuel - 1, by omega⟩
                rw [List.map_cons, linkWalk]
                simp only [hcond, Bool.false_eq_true, if_false, hfl]
              · simp [openTextsL, openTexts]
            | ok ms =>
              cases ms with
              | nil =>
                refine keep 0 (.text d) (fun fuel _ => ?_) (fun ks hk => .plain hfl hk)
                rw [List.map_cons, linkWalk]
                simp only [hcond, Bool.false_eq_true, if_false, hfl]
                cases linkWalk E cfg skip ns fuel false (l.map fun z => (false, z)) <;> rfl
              | cons m ms =>
                have hex := fun x hx => C46_matches_exact E cfg d _ hfl x hx
                have hdj := C46_matches_disjoint E cfg d _ hfl
                obtain ⟨c1, c2, c3, c4⟩ := linkPieces_cut (linkNs ns) d (m :: ms) 0 hex hdj (fun _ _ => Nat.zero_le _)
                have hcut : CutAt (linkNs ns) d (m :: ms) (linkPieces (linkNs ns) d 0 (m :: ms)) :=
                  ⟨c1, c2, c3, fun l m' r h => by simpa using c4 l m' r h⟩
                generalize hps : linkPieces (linkNs ns) d 0 (m :: ms) = ps at hcut c2
                refine ⟨N + 2 + ps.length + 1, Walked.prepend ps w, fun fuel hf => ?_, ?_⟩
                · obtain ⟨g, rfl, hg⟩ : ∃ g, fuel = (g + ps.length) + 1 ∧ N + 2 ≤ g := ⟨fuel - 1 - ps.length, by omega, by omega⟩
                  rw [List.map_cons, linkWalk]
                  simp only [hcond, Bool.false_eq_true, if_false, hfl]
                  rw [hps, linkWalk_pieces E cfg skip ha ns false (linkNs ns) _ g (by omega) ps
                    (fun p hp => (c2 p hp).imp id fun ⟨m, _, h⟩ => ⟨m, h⟩), hw g (by omega)]
                · rcases ho with ⟨ks, rfl, hk⟩ | ⟨rfl, d', hd', he⟩
                  · refine .inl ⟨ps ++ ks, rfl, .links hfl (by simp) ?_ hk⟩
                    have hns : orHtml ns = linkNs ns := by
                      cases ns with
                      | none => rfl
                      | some n => cases n <;> rfl
                    rw [hns]
                    exact hcut
                  · exact .inr ⟨rfl, d', by rw [openTextsL]; exact List.mem_append_right _ hd', he⟩
      | comment d =>
        refine keep 0 (.comment d) (fun fuel _ => ?_) (fun ks hk => .other trivial hk)
        rw [List.map_cons, linkWalk.eq_def]
        dsimp only
        cases linkWalk E cfg skip ns fuel off (l.map fun z => (false, z)) <;> rfl
      | pi d =>
        refine keep 0 (.pi d) (fun fuel _ => ?_) (fun ks hk => .other trivial hk)
        rw [List.map_cons, linkWalk.eq_def]
        dsimp only
        cases linkWalk E cfg skip ns fuel off (l.map fun z => (false, z)) <;> rfl
      | doctype a b c =>
        refine keep 0 (.doctype a b c) (fun fuel _ => ?_) (fun ks hk => .other trivial hk)
        rw [List.map_cons, linkWalk.eq_def]
        dsimp only
        cases linkWalk E cfg skip ns fuel off (l.map fun z => (false, z)) <;> rfl
      | doc kids =>
        rw [Node.size] at hl
        obtain ⟨N1, w1, hw1, ho1⟩ := ih kids (by omega) none off
        rcases ho1 with ⟨ks1, rfl, hk1⟩ | ⟨rfl, d, hd, he⟩
        · refine keep N1 (.doc ks1) (fun fuel hf => ?_) (fun ks hk => .doc hk1 hk)
          rw [List.map_cons, linkWalk, hw1 fuel hf]
          cases linkWalk E cfg skip ns fuel off (l.map fun z => (false, z)) <;> rfl
        · refine ⟨N1 + 1, .raised, fun fuel hf => ?_, .inr ⟨rfl, d, ?_, he⟩⟩
          · obtain ⟨g, rfl⟩ : ∃ g, fuel = g + 1 := ⟨fuel - 1, by omega⟩
            rw [List.map_cons, linkWalk, hw1 g (by omega)]
          · rw [openTextsL, openTexts]; exact List.mem_append_left _ hd
      | elem nm ns' attrs kids tpl content =>
        rw [Node.size] at hl
        have hskip : (off || skip.contains (E.U.lower nm)) = (off || decide (E.U.lower nm ∈ skip)) := by
          congr 1
          rw [Bool.eq_iff_iff]; simp
        obtain ⟨N1, w1, hw1, ho1⟩ := ih kids (by omega) ns' (off || decide (E.U.lower nm ∈ skip))
        rcases ho1 with ⟨ks1, rfl, hk1⟩ | ⟨rfl, d, hd, he⟩
        · cases tpl with
          | false =>
            refine keep N1 (.elem nm ns' attrs ks1 false content) (fun fuel hf => ?_) (fun ks hk => .elem hk1 hk)
            rw [List.map_cons, linkWalk, hskip]
            rw [hw1 fuel hf]
            simp only [Bool.false_eq_true, if_false]
            cases linkWalk E cfg skip ns fuel off (l.map fun z => (false, z)) <;> rfl
          | true =>
            obtain ⟨N2, w2, hw2, ho2⟩ := ih content (by omega) none (off || decide (E.U.lower nm ∈ skip))
            rcases ho2 with ⟨ks2, rfl, hk2⟩ | ⟨rfl, d, hd, he⟩
            · refine keep (N1 + N2) (.elem nm ns' attrs ks1 true ks2) (fun fuel hf => ?_) (fun ks hk => .template hk1 hk2 hk)
              rw [List.map_cons, linkWalk, hskip]
              rw [hw1 fuel (by omega)]
              simp only [if_true]
              rw [hw2 fuel (by omega)]
              cases linkWalk E cfg skip ns fuel off (l.map fun z => (false, z)) <;> rfl
            · refine ⟨N1 + N2 + 1, .raised, fun fuel hf => ?_, .inr ⟨rfl, d, ?_, he⟩⟩
              · obtain ⟨g, rfl⟩ : ∃ g, fuel = g + 1 := ⟨fuel - 1, by omega⟩
                rw [List.map_cons, linkWalk, hskip]
                rw [hw1 g (by omega)]
                simp only [if_true]
                rw [hw2 g (by omega)]
              · rw [openTextsL, openTexts, if_pos rfl]
                exact List.mem_append_left _ (List.mem_append_right _ hd)
        · refine ⟨N1 + 1, .raised, fun fuel hf => ?_, .inr ⟨rfl, d, ?_, he⟩⟩
          · obtain ⟨g, rfl⟩ : ∃ g, fuel = g + 1 := ⟨fuel - 1, by omega⟩
            rw [List.map_cons, linkWalk, hskip]
            rw [hw1 g (by omega)]
          · rw [openTextsL, openTexts]
            exact List.mem_append_left _ (List.mem_append_left _ hd)

/-- C69 (the code fails when `a` is not a skip tag, see `C69_endless_fails`): the walk of the Linkify transform over the children of
any tree ends. It ends with an exception only when `find_links` raises on a text node outside the skip tags; otherwise only text nodes
outside the skip tags have changed, each into its cut at the links found in it. -/
theorem C69_walk_partial (E : LinkEnv) (cfg : LinkCfg) (skip : List Str) (ha : c%"a" ∈ skip) (ns : Option Str) (kids : List Node) :
    ∃ N w, (∀ fuel, N ≤ fuel → linkWalk E cfg skip ns fuel false (kids.map fun n => (false, n)) = w) ∧
      ((∃ ks, w = .done ks ∧ Linkified E cfg skip ns false kids ks) ∨
        (w = .raised ∧ ∃ d ∈ openTextsL E.U skip false kids, findLinks E cfg d = .error ())) :=
  linkWalk_total E cfg skip ha _ kids (Nat.le_refl _) ns false

/-- C69 is false of the code when `a` is not among the skip tags: the text inside a new link is linkified again, without end. -/
theorem C69_endless_fails (E : LinkEnv) (cfg : LinkCfg) (skip : List Str) (ha : c%"a" ∉ skip) (d : Str) (m : LinkMatch)
    (hd : findLinks E cfg d = .ok [m]) (h0 : m.start = 0) (h1 : m.stop = d.length) :
    ∀ (fuel : Nat) (ns : Option Str), linkWalk E cfg skip ns fuel false [(false, .text d)] = .running := by
  have hex := C46_matches_exact E cfg d _ hd m (by simp)
  have htext : m.text = d := by rw [hex.2.2, slice, h0, h1]; simp
  have hne : d ≠ [] := by
    rintro rfl
    have := hex.1
    simp only [List.length_nil] at h1
    omega
  have hcond : (false || false || d.isEmpty) = false := by simpa using hne
  intro fuel
  induction fuel using Nat.strongRecOn with
  | _ fuel ih =>
    intro ns
    match fuel, ih with
    | 0, _ => rw [linkWalk]
    | 1, _ =>
      rw [linkWalk]
      simp only [hcond, Bool.false_eq_true, if_false, hd]
      rw [linkWalk]
    | g + 2, ih =>
      rw [linkWalk]
      simp only [hcond, Bool.false_eq_true, if_false, hd]
      have hp : linkPieces (linkNs ns) d 0 [m] = [linkNode (linkNs ns) m] := by
        rw [linkPieces, linkPieces, h0, h1]; simp
      rw [hp, List.append_nil, List.map_cons, List.map_nil, linkNode, linkWalk]
      have hs : (false || skip.contains (E.U.lower c%"a")) = false := by
        rw [lower_a]; simp [ha]
      rw [hs]
      rw [htext, List.map_cons, List.map_nil, ih g (by omega)]

/-- The hypotheses are met: `Linkify(skip_tags=["code"])` on the text `a.com`. -/
example : ∀ fuel, linkWalk LinkEnv.sample ⟨false, []⟩ [c%"code"] none fuel false [(false, .text c%"a.com")] = .running :=
  fun fuel => C69_endless_fails LinkEnv.sample ⟨false, []⟩ [c%"code"] (by decide) c%"a.com" ⟨0, 5, c%"a.com", c%"http://a.com", false⟩
    (by decide +kernel) rfl rfl fuel none

theorem cutAt_text {ns d ms ps} (h : CutAt ns d ms ps) : plainTextL ps = d := h.1

/-- C47: Linkify keeps the text of the tree. -/
theorem C47_text_preserved (E : LinkEnv) (cfg : LinkCfg) (skip : List Str) (ha : c%"a" ∈ skip) (ns : Option Str) (kids ks : List Node)
    (fuel : Nat) (h : ∀ f, fuel ≤ f → linkWalk E cfg skip ns f false (kids.map fun n => (false, n)) = .done ks) :
    plainTextL ks = plainTextL kids := by
  have key : ∀ {ns off l l'}, Linkified E cfg skip ns off l l' → plainTextL l' = plainTextL l := by
    intro ns off l l' h
    induction h with
    | nil => rfl
    | skipped _ ih => rw [plainTextL, plainTextL, ih]
    | plain _ _ ih => rw [plainTextL, plainTextL, ih]
    | links _ _ hc _ ih => rw [plainTextL_append, plainTextL, ih, cutAt_text hc, plainText]
    | elem _ _ ih1 ih2 => rw [plainTextL, plainTextL, plainText, plainText, ih1, ih2]
    | template _ _ _ ih1 ih2 ih3 => rw [plainTextL, plainTextL, plainText, plainText, ih1, ih2, ih3]
    | doc _ _ ih1 ih2 => rw [plainTextL, plainTextL, plainText, plainText, ih1, ih2]
    | other _ _ ih => rw [plainTextL, plainTextL, ih]
  obtain ⟨N, w, hw, ho⟩ := C69_walk_partial E cfg skip ha ns kids
  have h1 := h (fuel + N) (by omega)
  rw [hw (fuel + N) (by omega)] at h1
  rcases ho with ⟨ks', h2, hk⟩ | ⟨h2, _⟩
  · rw [h2] at h1
    cases h1
    exact key hk
  · rw [h2] at h1; cases h1

end JH
