import Verif.Lemmas.EngForest
import Verif.Lemmas.Strings
import Verif.Model.Errors
import Verif.Spec.Errors
/-! The scan for parse errors, piece by piece (C100). -/
namespace JH.Eng
open JH.Spec

/-! ### Places -/

/-- The starts of the lines after the first one. -/
def nls (c0 : Char) : Nat → Str → List Nat
  | _, [] => []
  | b, c :: s => if c = c0 then (b + 1) :: nls c0 (b + 1) s else nls c0 (b + 1) s

theorem find1 (c0 c : Char) (s : Str) : find? [c0] (c :: s) = if c = c0 then some 0 else (find? [c0] s).map (· + 1) := by
  rw [find?]
  by_cases h : c = c0
  · rw [if_pos h, if_pos (by simp [startsWith, h])]
  · rw [if_neg h, if_neg (by simp [startsWith]; exact fun e => h e.symm)]

theorem moreStarts_eq : ∀ (s : Str) (n b : Nat), s.length < n → moreStarts n b s = nls '\n' b s
  | [], n, b, h => by
    cases n with
    | zero => omega
    | succ n => rfl
  | c :: s, n, b, h => by
    cases n with
    | zero => omega
    | succ n =>
      simp only [List.length_cons] at h
      rw [moreStarts, find1, nls]
      by_cases hc : c = '\n'
      · rw [if_pos hc, if_pos hc]
        dsimp only
        rw [Nat.add_zero]
        congr 1
        exact moreStarts_eq s n (b + 1) (by omega)
      · rw [if_neg hc, if_neg hc, ← moreStarts_eq s (n + 1) (b + 1) (by omega), moreStarts]
        cases find? c%"\n" s with
        | none => rfl
        | some k =>
          dsimp only [Option.map]
          rw [show b + (k + 1) + 1 = b + 1 + k + 1 by omega]
          rfl

theorem nls_gt (c0 : Char) : ∀ (s : Str) (b : Nat), ∀ x ∈ nls c0 b s, b < x
  | [], b, x, h => by simp [nls] at h
  | c :: s, b, x, h => by
    rw [nls] at h
    split at h
    · rcases List.mem_cons.1 h with rfl | h
      · omega
      · have := nls_gt c0 s (b + 1) x h; omega
    · have := nls_gt c0 s (b + 1) x h; omega

theorem filter_none {l : List Nat} {b : Nat} (h : ∀ x ∈ l, b < x) : l.filter (· ≤ b) = [] := by
  rw [List.filter_eq_nil_iff]
  intro x hx
  have := h x hx
  simp; omega

theorem place_gen : ∀ (s : Str) (p b ls L : Nat), p ≤ s.length → ls ≤ b →
    (s.take p).foldl Spec.step (L, b - ls + 1) =
      (L + ((nls '\n' b s).filter (· ≤ b + p)).length, b + p - (ls :: nls '\n' b s).getD ((nls '\n' b s).filter (· ≤ b + p)).length 0 + 1)
  | s, 0, b, ls, L, _, hl => by
    simp only [Nat.add_zero]
    rw [filter_none (nls_gt _ s b)]
    simp
  | [], p + 1, b, ls, L, h, hl => by simp at h
  | c :: s, p + 1, b, ls, L, h, hl => by
    simp only [List.length_cons] at h
    rw [List.take_succ_cons, List.foldl_cons, nls]
    by_cases hc : c = '\n'
    · rw [if_pos hc, show Spec.step (L, b - ls + 1) c = (L + 1, b + 1 - (b + 1) + 1) by simp [Spec.step, hc]]
      rw [place_gen s p (b + 1) (b + 1) (L + 1) (by omega) (by omega)]
      rw [List.filter_cons, if_pos (by simp)]
      rw [show b + (p + 1) = b + 1 + p by omega]
      simp only [List.length_cons, List.getD_cons_succ, Prod.mk.injEq, and_true]
      omega
    · rw [if_neg hc, show Spec.step (L, b - ls + 1) c = (L, b + 1 - ls + 1) by simp [Spec.step, hc]; omega]
      rw [place_gen s p (b + 1) ls L (by omega) (by omega)]
      rw [show b + (p + 1) = b + 1 + p by omega]

theorem lineCol_place (html : Str) (p : Nat) (h : p < html.length) : lineCol html p = place html p := by
  unfold lineCol place
  rw [if_neg (by omega)]
  have hg := place_gen html p 0 0 1 (by omega) (by omega)
  simp only [Nat.zero_add] at hg
  rw [show ((1, 1) : Nat × Nat) = (1, 0 - 0 + 1) from rfl, hg]
  unfold lineStarts
  rw [moreStarts_eq _ _ _ (by omega)]
  dsimp only
  rw [List.filter_cons, if_pos (by simp)]
  simp only [List.length_cons, Nat.add_sub_cancel, Prod.mk.injEq, and_true]
  omega

/-! ### NUL -/

theorem nullEmits_eq : ∀ (s : Str) (n b : Nat), s.length < n →
    nullEmits n b s = (nls '\x00' b s).map fun p => { code := c%"unexpected-null-character", pos := p - 1 }
  | [], n, b, h => by
    cases n with
    | zero => omega
    | succ n => rfl
  | c :: s, n, b, h => by
    cases n with
    | zero => omega
    | succ n =>
      simp only [List.length_cons] at h
      rw [nullEmits, find1, nls]
      by_cases hc : c = '\x00'
      · rw [if_pos hc, if_pos hc]
        dsimp only
        rw [Nat.add_zero, List.map_cons, Nat.add_sub_cancel]
        congr 1
        exact nullEmits_eq s n (b + 1) (by omega)
      · rw [if_neg hc, if_neg hc, ← nullEmits_eq s (n + 1) (b + 1) (by omega), nullEmits]
        cases find? c%"\x00" s with
        | none => rfl
        | some k =>
          dsimp only [Option.map]
          rw [show b + (k + 1) = b + 1 + k by omega]
          rfl

theorem nls_mem (c0 : Char) : ∀ (s : Str) (b p : Nat), b + p + 1 ∈ nls c0 b s ↔ s[p]? = some c0
  | [], b, p => by simp [nls]
  | c :: s, b, 0 => by
    rw [nls]
    by_cases hc : c = c0
    · rw [if_pos hc]; simp [hc]
    · rw [if_neg hc]
      simp only [List.getElem?_cons_zero, Option.some.injEq, hc, iff_false]
      intro h
      have := nls_gt c0 s (b + 1) _ h
      omega
  | c :: s, b, p + 1 => by
    have ih := nls_mem c0 s (b + 1) p
    rw [show b + (p + 1) + 1 = b + 1 + p + 1 by omega, List.getElem?_cons_succ, nls]
    split
    · rw [List.mem_cons, ih]
      constructor
      · rintro (h | h)
        · omega
        · exact h
      · exact .inr
    · exact ih

theorem nls_sorted (c0 : Char) : ∀ (s : Str) (b : Nat), (nls c0 b s).Pairwise (· < ·)
  | [], b => by simp [nls]
  | c :: s, b => by
    rw [nls]
    split
    · exact List.pairwise_cons.2 ⟨fun x hx => nls_gt c0 s (b + 1) x hx, nls_sorted c0 s (b + 1)⟩
    · exact nls_sorted c0 s (b + 1)

/-! ### The limit -/

theorem emit_fold (html : Str) (max : Nat) (h : max ≠ 0) : ∀ (l : List Emit) (acc : List ScanErr), acc.length ≤ max →
    l.foldl (emit html max) acc = acc ++ (l.map (mkErr html)).take (max - acc.length)
  | [], acc, _ => by simp
  | e :: l, acc, hl => by
    rw [List.foldl_cons, List.map_cons]
    unfold emit
    by_cases hm : acc.length ≥ max
    · rw [if_pos (by simp [hm])]
      have : max - acc.length = 0 := by omega
      rw [this, List.take_zero, List.append_nil]
      have := emit_fold html max h l acc hl
      rw [show max - acc.length = 0 by omega, List.take_zero, List.append_nil] at this
      exact this
    · rw [if_neg (by simp [h]; omega)]
      have := emit_fold html max h l (acc ++ [mkErr html e]) (by simp; omega)
      unfold emit at this
      rw [this, List.length_append, List.length_singleton]
      rw [show max - acc.length = (max - (acc.length + 1)) + 1 by omega, List.take_succ_cons]
      simp

theorem parseErrors_eq (U : Uni) (fragment : Bool) (max : Nat) (html : Str) :
    parseErrors U fragment max html = ((scanEmits U fragment html).map (mkErr html)).take max := by
  unfold parseErrors
  split
  · rename_i h; rw [h, List.take_zero]
  · rename_i h
    rw [emit_fold html max h _ [] (by simp)]
    simp

/-! ### Open tags -/

/-- The positions of a name. -/
def idx (name : Str) : Nat → List Str → List Nat
  | _, [] => []
  | b, x :: l => if x = name then b :: idx name (b + 1) l else idx name (b + 1) l

theorem idx_append (name : Str) : ∀ (l1 l2 : List Str) (b : Nat), idx name b (l1 ++ l2) = idx name b l1 ++ idx name (b + l1.length) l2
  | [], l2, b => by simp [idx]
  | x :: l1, l2, b => by
    simp only [List.cons_append, idx, List.length_cons]
    rw [idx_append name l1 l2 (b + 1), show b + 1 + l1.length = b + (l1.length + 1) by omega]
    split <;> rfl

/-- The open tags `o` stand for the list `l`, innermost first. -/
def Stands (o : OpenTags) (l : List Str) : Prop := o.tags = l.reverse ∧ ∀ n, o.at_ n = idx n 0 o.tags

/-- The position of the innermost `name`. -/
def topIdx (name : Str) : List Str → Option Nat
  | [] => none
  | x :: l => if x = name then some l.length else topIdx name l

theorem idx_last (name : Str) : ∀ l : List Str, (idx name 0 l.reverse).getLast? = topIdx name l
  | [] => rfl
  | x :: l => by
    rw [List.reverse_cons, idx_append, topIdx]
    simp only [idx, List.length_reverse, Nat.zero_add]
    split
    · simp
    · rw [List.append_nil]; exact idx_last name l

theorem Stands.last {o : OpenTags} {l : List Str} (h : Stands o l) (name : Str) : (o.at_ name).getLast? = topIdx name l := by
  rw [h.2, h.1, idx_last]

theorem topIdx_lt {name : Str} : ∀ {l : List Str} {i : Nat}, topIdx name l = some i → i < l.length
  | x :: l, i, h => by
    rw [topIdx] at h
    split at h
    · cases h; simp
    · have := topIdx_lt h; simp; omega

theorem topIdx_none {name : Str} : ∀ {l : List Str}, topIdx name l = none ↔ name ∉ l
  | [] => by simp [topIdx]
  | x :: l => by
    rw [topIdx]
    split
    · rename_i h; simp [h]
    · rename_i h
      rw [topIdx_none]
      simp only [List.mem_cons, not_or]
      exact ⟨fun k => ⟨fun e => h e.symm, k⟩, fun k => k.2⟩

theorem take_topIdx {name : Str} : ∀ {l : List Str} {i : Nat}, topIdx name l = some i → l.reverse.take i = (closeTag name l).reverse
  | x :: l, i, h => by
    rw [topIdx] at h
    rw [List.reverse_cons, closeTag]
    split at h
    · rename_i hx
      cases h
      rw [if_pos hx, List.take_append_of_le_length (by simp)]
      rw [List.take_of_length_le (by simp)]
    · rename_i hx
      rw [if_neg hx, List.take_append_of_le_length (by have := topIdx_lt h; simp; omega)]
      exact take_topIdx h

theorem idx_fold : ∀ (l2 l1 : List Str) (f : Str → List Nat), (∀ n, f n = idx n 0 (l1 ++ l2.reverse)) →
    ∀ n, l2.foldl (fun f removed => fun n => if n = removed then (f n).dropLast else f n) f n = idx n 0 l1
  | [], l1, f, h, n => by simpa using h n
  | x :: l2, l1, f, h, n => by
    rw [List.foldl_cons]
    refine idx_fold l2 l1 _ ?_ n
    intro m
    rw [h m, List.reverse_cons, ← List.append_assoc, idx_append]
    simp only [idx]
    by_cases e : m = x
    · rw [if_pos e, if_pos e.symm, List.dropLast_concat]
    · rw [if_neg e, if_neg (fun k => e k.symm), List.append_nil]

theorem Stands.truncate {o : OpenTags} {l : List Str} (h : Stands o l) {name : Str} {i : Nat} (hi : topIdx name l = some i) :
    Stands (o.truncate i) (closeTag name l) := by
  refine ⟨?_, ?_⟩
  · show o.tags.take i = _
    rw [h.1]; exact take_topIdx hi
  · intro n
    show (o.tags.drop i).reverse.foldl _ o.at_ n = idx n 0 (o.tags.take i)
    refine idx_fold _ _ _ ?_ n
    intro m
    rw [List.reverse_reverse, List.take_append_drop]
    exact h.2 m

theorem Stands.push {o : OpenTags} {l : List Str} (h : Stands o l) (name : Str) : Stands (o.push name) (name :: l) := by
  refine ⟨?_, ?_⟩
  · show o.tags ++ [name] = _
    rw [h.1, List.reverse_cons]
  · intro n
    show (if n = name then o.at_ n ++ [o.tags.length] else o.at_ n) = idx n 0 (o.tags ++ [name])
    rw [idx_append, h.2 n]
    simp only [idx, Nat.zero_add]
    by_cases e : n = name
    · rw [if_pos e, if_pos e.symm]
    · rw [if_neg e, if_neg (fun k => e k.symm), List.append_nil]

theorem pScope_walls : ∀ b, b ∈ pScope ↔ b ∈ walls := by
  have h1 : ∀ b ∈ pScope, b ∈ walls := by decide
  have h2 : ∀ b ∈ walls, b ∈ pScope := by decide
  exact fun b => ⟨h1 b, h2 b⟩

theorem pClosing_enders : ∀ b, b ∈ pClosing ↔ b ∈ paragraphEnders := by
  have h1 : ∀ b ∈ pClosing, b ∈ paragraphEnders := by decide
  have h2 : ∀ b ∈ paragraphEnders, b ∈ pClosing := by decide
  exact fun b => ⟨h1 b, h2 b⟩

theorem voids_endless : voids = endless := by decide

/-- The test of the code, on the list. -/
theorem paragraphOpen_iff : ∀ l : List Str, paragraphOpen l = true ↔
    ∃ p, topIdx c%"p" l = some p ∧ ∀ b ∈ walls, ∀ i, topIdx b l = some i → i < p
  | [] => by simp [paragraphOpen, topIdx]
  | x :: l => by
    rw [paragraphOpen]
    by_cases hx : x = c%"p"
    · simp only [hx, decide_true, Bool.true_or, true_iff]
      refine ⟨l.length, by simp [topIdx], ?_⟩
      intro b hb i hi
      have hbp : c%"p" ≠ b := by rintro rfl; revert hb; decide
      rw [topIdx, if_neg hbp] at hi
      exact topIdx_lt hi
    · simp only [hx, decide_false, Bool.false_or, Bool.and_eq_true, Bool.not_eq_true']
      rw [paragraphOpen_iff l]
      have e : ∀ b, b ≠ x → topIdx b (x :: l) = topIdx b l := fun b hb => by rw [topIdx, if_neg (fun k => hb k.symm)]
      rw [e _ (fun k => hx k.symm)]
      constructor
      · rintro ⟨hw, p, hp, hall⟩
        refine ⟨p, hp, fun b hb i hi => hall b hb i ?_⟩
        rwa [e b (by rintro rfl; rw [List.contains_iff_mem.2 hb] at hw; simp at hw)] at hi
      · rintro ⟨p, hp, hall⟩
        have hw : x ∉ walls := by
          intro hw
          have := hall x hw l.length (by simp [topIdx])
          have := topIdx_lt hp
          omega
        refine ⟨by simpa using hw, p, hp, fun b hb i hi => hall b hb i ?_⟩
        rwa [e b (by rintro rfl; exact hw hb)]

theorem Stands.closeP {o : OpenTags} {l : List Str} (h : Stands o l) (name : Str) :
    Stands (o.closeP name) (if name ∈ paragraphEnders ∧ paragraphOpen l = true then closeTag c%"p" l else l) := by
  unfold OpenTags.closeP
  by_cases hn : name ∈ paragraphEnders
  · rw [if_pos (List.contains_iff_mem.2 ((pClosing_enders name).2 hn)), h.last]
    have hiff := paragraphOpen_iff l
    cases hp : topIdx c%"p" l with
    | none =>
      rw [if_neg]
      · exact h
      · rintro ⟨-, k⟩
        obtain ⟨p, h1, -⟩ := hiff.1 k
        rw [hp] at h1; cases h1
    | some p =>
      dsimp only
      have hc : (pScope.all fun b => outside p (o.at_ b).getLast?) = true ↔ paragraphOpen l = true := by
        rw [hiff, List.all_eq_true, hp]
        constructor
        · intro k
          refine ⟨p, rfl, fun b hb i hi => ?_⟩
          have := k b ((pScope_walls b).2 hb)
          rw [h.last, hi] at this
          simpa [outside] using this
        · rintro ⟨p', e, k⟩ b hb
          cases e
          rw [h.last]
          cases hb2 : topIdx b l with
          | none => rfl
          | some i => simpa [outside] using k b ((pScope_walls b).1 hb) i hb2
      by_cases hk : paragraphOpen l = true
      · rw [if_pos (hc.2 hk), if_pos ⟨hn, hk⟩]; exact h.truncate hp
      · rw [if_neg (fun k => hk (hc.1 k)), if_neg (fun k => hk k.2)]; exact h
  · rw [if_neg (fun k => hn ((pClosing_enders name).1 (List.contains_iff_mem.1 k))), if_neg (fun k => hn k.1)]
    exact h

/-! ### Pieces -/

theorem tagEnd_in (q : Char) (b s : Str) (h : q ∉ b) : findTagEnd (some q) (b ++ q :: s) = (findTagEnd none s).map (· + (b.length + 1)) := by
  induction b with
  | nil => simp [findTagEnd]
  | cons c b ih =>
    simp only [List.mem_cons, not_or] at h
    rw [List.cons_append, findTagEnd, if_neg (fun e => h.1 e.symm), ih h.2, Option.map_map]
    rfl

theorem tagEnd_quoted {a : Str} (h : Quoted a) (rest : Str) : findTagEnd none (a ++ '>' :: rest) = some a.length := by
  induction h with
  | nil => rfl
  | char h1 h2 h3 _ ih =>
    rw [List.cons_append, findTagEnd, if_neg (by simp [h1, h2]), if_neg h3, ih]
    rfl
  | @str q b s hq hb _ ih =>
    rw [List.cons_append, findTagEnd, if_pos (by simpa using hq), List.append_assoc, List.cons_append, tagEnd_in q b _ hb, ih]
    simp
    omega

theorem selfClosing_slashed (a : Str) : selfClosing a = slashed a := by
  have e : isHtmlSpace = isBlank := by
    funext c
    simp only [isHtmlSpace, isBlank, List.mem_cons, List.not_mem_nil, or_false, Bool.decide_or, Bool.or_assoc]
  unfold selfClosing slashed rstripP
  rw [e, List.getLast?_reverse]

theorem plain_alpha (U : Uni) {name : Str} (h : PlainTag name) : ∃ c r, name = c :: r ∧ U.isAlpha c = true ∧ c ≠ '!' ∧ c ≠ '/' := by
  obtain ⟨⟨c, r, rfl, h1, h2⟩, h3⟩ := h
  refine ⟨c, r, rfl, ?_, ?_, ?_⟩
  · rw [U.isAlpha_ascii c (h3 c (by simp)).1]
    have g1 : 97 ≤ c.toNat := h1
    have g2 : c.toNat ≤ 122 := h2
    simp [isAsciiAlpha, isLowerC, g1, g2]
  · rintro rfl; revert h1; decide
  · rintro rfl; revert h1; decide

theorem readName_plain (U : Uni) {name rest : Str} (h : PlainTag name) (hr : ∀ c, rest.head? = some c → isTagStop c = true) :
    readName U (name ++ rest) = name := by
  unfold readName
  rw [(takeWhile_append_stop (p := fun c => !isTagStop c) (fun c hc => by simp [tagStop_plain (h.2 c hc)]) (fun c hc => by simp [hr c hc])).1]
  exact lower_plain U h.2

theorem head_stop {attrs : Str} (h : ∀ c ∈ attrs.head?, isBlank c = true ∨ c = '/') (rest : Str) :
    ∀ c, (attrs ++ '>' :: rest).head? = some c → isTagStop c = true := by
  intro c hc
  cases attrs with
  | nil => simp at hc; subst hc; decide
  | cons d a =>
    simp at hc
    subst hc
    rcases h d (by simp) with h | rfl
    · revert h
      simp only [isBlank, List.mem_cons, List.not_mem_nil, or_false, decide_eq_true_eq]
      rintro (rfl | rfl | rfl | rfl | rfl) <;> decide
    · decide

/-- The call that reports an end tag that closes nothing. -/
def strayEmit (x : Nat × Str × Nat) : Emit :=
  { code := c%"unexpected-end-tag", pos := x.1, tag := some x.2.1, tree := true, endPos := some x.2.2 }

/-- The text of the pieces. -/
def srcs (ps : List Piece) : Str := ps.flatMap Piece.src

theorem scan_skip (U : Uni) (total n : Nat) (o : OpenTags) (t r : Str) (h : '<' ∉ t) :
    scanLoop U total (n + 1) o (t ++ '<' :: r) = scanLoop U total (n + 1) o ('<' :: r) := by
  have e : find? c%"<" ('<' :: r) = some 0 := find_char '<' [] r (by simp)
  rw [scanLoop, scanLoop, find_char '<' t r h, e]
  simp only [List.drop_left, List.drop_zero, List.drop_succ_cons, Nat.zero_add]
  rw [← List.drop_drop, List.drop_left]
  rfl

theorem scan_decl (U : Uni) (total n : Nat) (o : OpenTags) {d : Str} (h1 : startsWith c%"--" d = false) (h2 : Quoted d) (rest : Str) :
    scanLoop U total (n + 1) o ('<' :: '!' :: (d ++ '>' :: rest)) = scanLoop U total n o rest := by
  have e : find? c%"<" ('<' :: '!' :: (d ++ '>' :: rest)) = some 0 := find_char '<' [] _ (by simp)
  have e2 : startsWith c%"--" (d ++ '>' :: rest) = false := by
    match d, h1 with
    | [], _ => rfl
    | [c], _ => simp [startsWith, List.isPrefixOf]
    | c :: c' :: d, h1 => simpa [startsWith, List.isPrefixOf] using h1
  rw [scanLoop, e]
  simp only [List.drop_succ_cons, List.drop_zero, Nat.zero_add, if_true, e2, Bool.false_eq_true, if_false]
  rw [tagEnd_quoted h2]
  dsimp only
  rw [← List.drop_drop, List.drop_left]
  rfl

theorem scan_comment (U : Uni) (total n : Nat) (o : OpenTags) {d : Str} (h : PlainComment d) (rest : Str) :
    scanLoop U total (n + 1) o ('<' :: '!' :: (c%"--" ++ (d ++ (c%"-->" ++ rest)))) = scanLoop U total n o rest := by
  have e : find? c%"<" ('<' :: '!' :: (c%"--" ++ (d ++ (c%"-->" ++ rest)))) = some 0 := find_char '<' [] _ (by simp)
  rw [scanLoop, e]
  have e2 : startsWith c%"--" (c%"--" ++ (d ++ (c%"-->" ++ rest))) = true := startsWith_append _ _
  simp only [List.drop_succ_cons, List.drop_zero, Nat.zero_add, if_true, e2]
  rw [commentEnd_all h]
  dsimp only
  congr 1
  rw [show c%"--" ++ (d ++ (c%"-->" ++ rest)) = (c%"--" ++ (d ++ c%"-->")) ++ rest by simp]
  rw [List.drop_left' (by simp)]

theorem scan_close (U : Uni) (total n : Nat) (o : OpenTags) {name attrs : Str} (h1 : PlainTag name) (h2 : Quoted attrs)
    (h3 : ∀ c ∈ attrs.head?, isBlank c = true ∨ c = '/') (rest : Str) :
    scanLoop U total (n + 1) o ('<' :: '/' :: (name ++ (attrs ++ '>' :: rest))) =
      if name = c%"br" || (o.at_ name).isEmpty then
        strayEmit (total - ('<' :: '/' :: (name ++ (attrs ++ '>' :: rest))).length, name,
          total - ('<' :: '/' :: (name ++ (attrs ++ '>' :: rest))).length + 2 + name.length + attrs.length) :: scanLoop U total n o rest
      else scanLoop U total n (o.truncate ((o.at_ name).getLast?.getD 0)) rest := by
  have e : find? c%"<" ('<' :: '/' :: (name ++ (attrs ++ '>' :: rest))) = some 0 := find_char '<' [] _ (by simp)
  rw [scanLoop, e]
  obtain ⟨c, r, hc, ha, -, -⟩ := plain_alpha U h1
  have e2 : (name ++ (attrs ++ '>' :: rest)).head?.any U.isAlpha = true := by rw [hc]; simp [ha]
  have e3 : ('/' : Char) ≠ '!' := by decide
  simp only [List.drop_succ_cons, List.drop_zero, Nat.zero_add, if_true, if_neg e3, e2, Bool.not_true, Bool.false_eq_true, if_false]
  rw [readName_plain U h1 (head_stop h3 rest), List.drop_left, tagEnd_quoted h2]
  dsimp only
  rw [← List.drop_drop, List.drop_left]
  rfl

theorem scan_start (U : Uni) (total n : Nat) (o : OpenTags) {name attrs : Str} (h1 : PlainTag name) (h2 : Quoted attrs)
    (h3 : ∀ c ∈ attrs.head?, isBlank c = true ∨ c = '/') (rest : Str) :
    scanLoop U total (n + 1) o ('<' :: (name ++ (attrs ++ '>' :: rest))) =
      scanLoop U total n (if !voids.contains name && !slashed attrs then (o.closeP name).push name else o.closeP name) rest := by
  have e : find? c%"<" ('<' :: (name ++ (attrs ++ '>' :: rest))) = some 0 := find_char '<' [] _ (by simp)
  obtain ⟨c, r, hc, ha, hx, hy⟩ := plain_alpha U h1
  have hn := readName_plain U h1 (head_stop h3 rest)
  rw [scanLoop, e]
  have e4 : name ++ (attrs ++ '>' :: rest) = c :: (r ++ (attrs ++ '>' :: rest)) := by rw [hc]; rfl
  simp only [List.drop_succ_cons, List.drop_zero, Nat.zero_add]
  rw [e4]
  simp only [if_neg hx, if_neg hy, ha, Bool.not_true, Bool.false_eq_true, if_false]
  rw [← e4, hn, List.drop_left, tagEnd_quoted h2]
  dsimp only
  rw [← List.drop_drop, List.drop_left, List.take_left, selfClosing_slashed]
  rfl

theorem idx_empty {name : Str} {o : OpenTags} {l : List Str} (h : Stands o l) : (o.at_ name).isEmpty = decide (name ∉ l) := by
  have h1 := h.last name
  by_cases hn : name ∈ l
  · rw [decide_eq_false (fun k => k hn), Bool.eq_false_iff]
    intro he
    rw [List.isEmpty_iff] at he
    rw [he] at h1
    exact topIdx_none.1 h1.symm hn
  · rw [decide_eq_true hn]
    rw [topIdx_none.2 hn, List.getLast?_eq_none_iff] at h1
    rw [h1]; rfl

/-- The scan of a sequence of pieces goes on with what follows them. -/
theorem scan_then (U : Uni) (total : Nat) (z : Str) (hz : z = [] ∨ ∃ r, z = '<' :: r) : ∀ (ps : List Piece) (t : Str) (n : Nat) (o : OpenTags) (l : List Str),
    (∀ p ∈ ps, p.Ok) → '<' ∉ t → Stands o l → (srcs ps).length + z.length < n → (srcs ps).length + z.length ≤ total →
    ∃ m o', z.length < m ∧ scanLoop U total n o (t ++ (srcs ps ++ z)) = (strays (total - ((srcs ps).length + z.length)) l ps).map strayEmit ++ scanLoop U total m o' z
  | [], t, n, o, l, hok, ht, hs, hn, hl => by
    cases n with
    | zero => omega
    | succ n =>
      refine ⟨n + 1, o, by simpa [srcs] using hn, ?_⟩
      rcases hz with rfl | ⟨r, rfl⟩
      · have : t ++ (srcs [] ++ []) = t := by simp [srcs]
        rw [this, scanLoop, find_char_none '<' t ht]
        rfl
      · have : t ++ (srcs [] ++ '<' :: r) = t ++ '<' :: r := by simp [srcs]
        rw [this, scan_skip U total n o t r ht]
        rfl
  | .text t' :: ps, t, n, o, l, hok, ht, hs, hn, hl => by
    have e : srcs (.text t' :: ps) = t' ++ srcs ps := rfl
    rw [e, List.length_append] at hn hl
    obtain ⟨m, o', hm, he⟩ := scan_then U total z hz ps (t ++ t') n o l (fun p hp => hok p (by simp [hp])) (by
      rw [List.mem_append]
      rintro (h | h)
      · exact ht h
      · exact hok (.text t') (by simp) h) hs (by omega) (by omega)
    refine ⟨m, o', hm, ?_⟩
    rw [e, List.append_assoc, ← List.append_assoc, he, strays, List.length_append]
    congr 3
    omega
  | .comment d :: ps, t, n, o, l, hok, ht, hs, hn, hl => by
    have e : srcs (.comment d :: ps) ++ z = '<' :: '!' :: (c%"--" ++ (d ++ (c%"-->" ++ (srcs ps ++ z)))) := by
      simp [srcs, Piece.src]
    cases n with
    | zero => omega
    | succ n =>
      rw [← List.length_append, e] at hn hl
      simp only [List.length_cons, List.length_append, List.length_nil] at hn hl
      rw [e, scan_skip U total n o t _ ht, scan_comment U total n o (hok (.comment d) (by simp)) _]
      obtain ⟨m, o', hm, he⟩ := scan_then U total z hz ps [] n o l (fun p hp => hok p (by simp [hp])) (by simp) hs (by omega) (by omega)
      rw [List.nil_append] at he
      refine ⟨m, o', hm, ?_⟩
      rw [he, strays, ← List.length_append (as := srcs (.comment d :: ps)), e]
      dsimp only [Piece.src]
      simp only [List.length_cons, List.length_append, List.length_nil]
      congr 3
      omega
  | .decl d :: ps, t, n, o, l, hok, ht, hs, hn, hl => by
    have e : srcs (.decl d :: ps) ++ z = '<' :: '!' :: (d ++ '>' :: (srcs ps ++ z)) := by
      simp [srcs, Piece.src]
    have hp := hok (.decl d) (by simp)
    cases n with
    | zero => omega
    | succ n =>
      rw [← List.length_append, e] at hn hl
      simp only [List.length_cons, List.length_append] at hn hl
      rw [e, scan_skip U total n o t _ ht, scan_decl U total n o hp.1 hp.2 _]
      obtain ⟨m, o', hm, he⟩ := scan_then U total z hz ps [] n o l (fun p hp => hok p (by simp [hp])) (by simp) hs (by omega) (by omega)
      rw [List.nil_append] at he
      refine ⟨m, o', hm, ?_⟩
      rw [he, strays, ← List.length_append (as := srcs (.decl d :: ps)), e]
      dsimp only [Piece.src]
      simp only [List.length_cons, List.length_append, List.length_nil]
      congr 3
      omega
  | .start name attrs :: ps, t, n, o, l, hok, ht, hs, hn, hl => by
    have e : srcs (.start name attrs :: ps) ++ z = '<' :: (name ++ (attrs ++ '>' :: (srcs ps ++ z))) := by
      simp [srcs, Piece.src]
    obtain ⟨h1, h2, h3⟩ := hok (.start name attrs) (by simp)
    cases n with
    | zero => omega
    | succ n =>
      rw [← List.length_append, e] at hn hl
      simp only [List.length_cons, List.length_append] at hn hl
      rw [e, scan_skip U total n o t _ ht, scan_start U total n o h1 h2 h3 _]
      have hst : Stands (if !voids.contains name && !slashed attrs then (o.closeP name).push name else o.closeP name) (openTag name attrs l) := by
        unfold openTag
        have hP := hs.closeP name
        rw [voids_endless]
        by_cases hc : name ∈ endless ∨ slashed attrs = true
        · rw [if_pos hc, if_neg]
          · exact hP
          · rcases hc with hc | hc <;> simp [hc]
        · rw [if_neg hc, if_pos]
          · exact hP.push name
          · rw [not_or] at hc; simp [hc]
      obtain ⟨m, o', hm, he⟩ := scan_then U total z hz ps [] n _ _ (fun p hp => hok p (by simp [hp])) (by simp) hst (by omega) (by omega)
      rw [List.nil_append] at he
      refine ⟨m, o', hm, ?_⟩
      rw [he, strays, ← List.length_append (as := srcs (.start name attrs :: ps)), e]
      dsimp only [Piece.src]
      simp only [List.length_cons, List.length_append, List.length_nil]
      congr 3
      omega
  | .close name attrs :: ps, t, n, o, l, hok, ht, hs, hn, hl => by
    have e : srcs (.close name attrs :: ps) ++ z = '<' :: '/' :: (name ++ (attrs ++ '>' :: (srcs ps ++ z))) := by
      simp [srcs, Piece.src]
    obtain ⟨h1, h2, h3⟩ := hok (.close name attrs) (by simp)
    cases n with
    | zero => omega
    | succ n =>
      rw [← List.length_append, e] at hn hl
      have hn' := hn
      have hl' := hl
      simp only [List.length_cons, List.length_append] at hn' hl'
      rw [e, scan_skip U total n o t _ ht, scan_close U total n o h1 h2 h3 _, idx_empty hs]
      have hk : total - ('<' :: '/' :: (name ++ (attrs ++ '>' :: (srcs ps ++ z)))).length + (Piece.close name attrs).src.length = total - ((srcs ps).length + z.length) := by
        simp only [Piece.src, List.length_cons, List.length_append, List.length_nil]
        omega
      rw [strays, ← List.length_append (as := srcs (.close name attrs :: ps)), e, hk]
      by_cases hc : name = c%"br" ∨ name ∉ l
      · rw [if_pos (by simpa using hc), if_pos hc, List.map_cons]
        obtain ⟨m, o', hm, he⟩ := scan_then U total z hz ps [] n o l (fun p hp => hok p (by simp [hp])) (by simp) hs (by omega) (by omega)
        rw [List.nil_append] at he
        exact ⟨m, o', hm, by rw [he]; rfl⟩
      · rw [if_neg (by simpa using hc), if_neg hc]
        rw [not_or] at hc
        have hm : name ∈ l := Classical.not_not.1 hc.2
        obtain ⟨i, hi⟩ : ∃ i, topIdx name l = some i := by
          cases hh : topIdx name l with
          | none => exact absurd hm (topIdx_none.1 hh)
          | some i => exact ⟨i, rfl⟩
        have hst : Stands (o.truncate ((o.at_ name).getLast?.getD 0)) (closeTag name l) := by
          rw [hs.last, hi]; exact hs.truncate hi
        obtain ⟨m, o', hm, he⟩ := scan_then U total z hz ps [] n _ _ (fun p hp => hok p (by simp [hp])) (by simp) hst (by omega) (by omega)
        rw [List.nil_append] at he
        exact ⟨m, o', hm, he⟩

/-- What the scan reports about a sequence of pieces. -/
theorem scan_pieces (U : Uni) (total : Nat) (ps : List Piece) (t : Str) (n : Nat) (o : OpenTags) (l : List Str) (hok : ∀ p ∈ ps, p.Ok) (ht : '<' ∉ t)
    (hs : Stands o l) (hn : (srcs ps).length < n) (hl : (srcs ps).length ≤ total) :
    scanLoop U total n o (t ++ srcs ps) = (strays (total - (srcs ps).length) l ps).map strayEmit := by
  obtain ⟨m, o', hm, he⟩ := scan_then U total [] (.inl rfl) ps t n o l hok ht hs hn hl
  have e : scanLoop U total m o' [] = [] := by
    cases m with
    | zero => rfl
    | succ m => rfl
  rw [e, List.append_nil, List.append_nil] at he
  exact he

end JH.Eng
