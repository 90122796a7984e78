import Verif.Lemmas.ErrWhere
import Verif.Lemmas.ErrWritten
import Verif.Props.EngRound
/-! Property C100: the errors of a parse. -/
namespace JH.Eng
open JH.Spec

/-! ### Order -/

/-- The first place is not after the second. -/
def notAfter (a b : Nat × Nat) : Prop := a.1 < b.1 ∨ a.1 = b.1 ∧ a.2 ≤ b.2

theorem step_after (p : Nat × Nat) (c : Char) : notAfter p (Spec.step p c) := by
  unfold Spec.step
  split
  · left; simp
  · right; simp

theorem notAfter_trans {a b c : Nat × Nat} (h1 : notAfter a b) (h2 : notAfter b c) : notAfter a c := by
  unfold notAfter at *
  omega

theorem fold_after : ∀ (l : Str) (p : Nat × Nat), notAfter p (l.foldl Spec.step p)
  | [], p => .inr ⟨rfl, Nat.le_refl _⟩
  | c :: l, p => notAfter_trans (step_after p c) (fold_after l _)

theorem place_mono (s : Str) {p q : Nat} (h : p ≤ q) : notAfter (place s p) (place s q) := by
  obtain ⟨k, rfl⟩ := Nat.exists_eq_add_of_le h
  unfold place
  rw [List.take_add, List.foldl_append]
  exact fold_after _ _

theorem errLe_iff (a b : ScanErr) : errLe a b = true ↔ notAfter (a.line, a.col) (b.line, b.col) := by
  unfold errLe notAfter
  simp

theorem errLe_total {a b : ScanErr} (h : ¬ errLe a b = true) : errLe b a = true := by
  rw [errLe_iff] at *
  unfold notAfter at *
  omega

theorem errLe_trans {a b c : ScanErr} (h1 : errLe a b = true) (h2 : errLe b c = true) : errLe a c = true := by
  rw [errLe_iff] at *
  exact notAfter_trans h1 h2

theorem insert_perm (e : ScanErr) : ∀ l : List ScanErr, (insertErr e l).Perm (e :: l)
  | [] => List.Perm.refl _
  | b :: l => by
    rw [insertErr]
    split
    · exact List.Perm.refl _
    · exact ((insert_perm e l).cons b).trans (List.Perm.swap e b l)

theorem sorted_perm : ∀ l : List ScanErr, (sortedErrors l).Perm l
  | [] => List.Perm.refl _
  | e :: l => (insert_perm e _).trans ((sorted_perm l).cons e)

theorem insert_pairwise (e : ScanErr) : ∀ l : List ScanErr, l.Pairwise (fun a b => errLe a b = true) → (insertErr e l).Pairwise fun a b => errLe a b = true
  | [], _ => by simp [insertErr]
  | b :: l, h => by
    obtain ⟨h1, h2⟩ := List.pairwise_cons.1 h
    rw [insertErr]
    by_cases hb : errLe e b = true
    · rw [if_pos hb]
      refine List.pairwise_cons.2 ⟨fun x hx => ?_, h⟩
      rcases List.mem_cons.1 hx with rfl | hx
      · exact hb
      · exact errLe_trans hb (h1 x hx)
    · rw [if_neg hb]
      refine List.pairwise_cons.2 ⟨fun x hx => ?_, insert_pairwise e l h2⟩
      rcases List.mem_cons.1 ((insert_perm e l).mem_iff.1 hx) with rfl | hx
      · exact errLe_total hb
      · exact h1 x hx

theorem sorted_pairwise : ∀ l : List ScanErr, (sortedErrors l).Pairwise fun a b => errLe a b = true
  | [] => List.Pairwise.nil
  | e :: l => insert_pairwise e _ (sorted_pairwise l)

theorem sorted_self : ∀ {l : List ScanErr}, (l.Pairwise fun a b => errLe a b = true) → sortedErrors l = l
  | [], _ => rfl
  | e :: l, h => by
    obtain ⟨h1, h2⟩ := List.pairwise_cons.1 h
    have ih := sorted_self h2
    show insertErr e (sortedErrors l) = _
    rw [ih]
    cases l with
    | nil => rfl
    | cons b l => rw [insertErr, if_pos (h1 b (by simp))]

/-! ### The theorems -/

/-- C100: every error stands at a place of the input, and there is what it says. -/
theorem C100_where (U : Uni) (fragment : Bool) (max : Nat) (html : Str) (e : ScanErr) (h : e ∈ docErrors U fragment max html) :
    ∃ p, p < html.length ∧ (e.line, e.col) = place html p ∧ Shows U html fragment p e.code e.tag := by
  unfold docErrors at h
  rw [(sorted_perm _).mem_iff, parseErrors_eq] at h
  obtain ⟨x, hx, rfl⟩ := List.mem_map.1 (List.mem_of_mem_take h)
  obtain ⟨h1, h2⟩ := emits_points U fragment html x hx
  exact ⟨x.pos, h1, lineCol_place html x.pos h1, h2⟩

/-- C100: the errors are sorted by place, there are at most `max`, and a larger limit only adds errors. -/
theorem C100_bounded (U : Uni) (fragment : Bool) (max : Nat) (html : Str) :
    (docErrors U fragment max html).length ≤ max ∧
    (docErrors U fragment max html).Pairwise (fun a b => a.line < b.line ∨ a.line = b.line ∧ a.col ≤ b.col) ∧
    ∀ m, m ≤ max → ∃ more, (docErrors U fragment max html).Perm (docErrors U fragment m html ++ more) ∧
      ((docErrors U fragment m html).length < m → more = []) := by
  refine ⟨?_, ?_, ?_⟩
  · unfold docErrors
    rw [(sorted_perm _).length_eq, parseErrors_eq, List.length_take]
    omega
  · refine (sorted_pairwise _).imp ?_
    intro a b h
    exact (errLe_iff a b).1 h
  · intro m hm
    have e : parseErrors U fragment m html = (parseErrors U fragment max html).take m := by
      rw [parseErrors_eq, parseErrors_eq, List.take_take, Nat.min_eq_left hm]
    refine ⟨(parseErrors U fragment max html).drop m, ?_, ?_⟩
    · unfold docErrors
      refine (sorted_perm _).trans ?_
      rw [e]
      conv => lhs; rw [← List.take_append_drop m (parseErrors U fragment max html)]
      exact (sorted_perm _).symm.append_right _
    · unfold docErrors
      rw [(sorted_perm _).length_eq, e, List.length_take]
      intro h
      exact List.drop_eq_nil_of_le (by omega)

/-- The error about the NUL at offset `p`. -/
def nulErr (html : Str) (p : Nat) : ScanErr := { code := c%"unexpected-null-character", line := (place html p).1, col := (place html p).2 }

theorem nul_part (html : Str) : ∃ ps : List Nat, ps.Pairwise (· < ·) ∧ (∀ p, p ∈ ps ↔ html[p]? = some '\x00') ∧
    (nullEmits (html.length + 1) 0 html).map (mkErr html) = ps.map (nulErr html) := by
  have hgt := nls_gt '\x00' html 0
  refine ⟨(nls '\x00' 0 html).map (· - 1), ?_, ?_, ?_⟩
  · rw [List.pairwise_map]
    refine (nls_sorted '\x00' html 0).imp_of_mem ?_
    intro a b ha hb hab
    have := hgt a ha
    omega
  · intro p
    have := nls_mem '\x00' html 0 p
    rw [Nat.zero_add] at this
    rw [← this, List.mem_map]
    constructor
    · rintro ⟨x, hx, rfl⟩
      have := hgt x hx
      rwa [show x - 1 + 1 = x by omega]
    · exact fun h => ⟨p + 1, h, rfl⟩
  · rw [nullEmits_eq html _ 0 (by omega), List.map_map, List.map_map]
    refine List.map_congr_left ?_
    intro p hp
    have h0 := hgt p hp
    have hm := nls_mem '\x00' html 0 (p - 1)
    rw [show 0 + (p - 1) + 1 = p by omega] at hm
    have hl : p - 1 < html.length := by
      rcases Nat.lt_or_ge (p - 1) html.length with h | h
      · exact h
      · have := hm.1 hp; rw [List.getElem?_eq_none h] at this; cases this
    show mkErr html _ = nulErr html (p - 1)
    unfold mkErr nulErr
    rw [lineCol_place html _ hl]

/-- C100: every NUL character is reported, once, before anything else can use up the limit. -/
theorem C100_nulls (U : Uni) (fragment : Bool) (max : Nat) (html : Str) :
    ∃ ps : List Nat, ps.Pairwise (· < ·) ∧ (∀ p, p ∈ ps ↔ html[p]? = some '\x00') ∧
      ∃ rest, (docErrors U fragment max html).Perm ((ps.map (nulErr html) ++ rest).take max) ∧ ∀ e ∈ rest, e.code ≠ c%"unexpected-null-character" := by
  obtain ⟨ps, h1, h2, h3⟩ := nul_part html
  refine ⟨ps, h1, h2, ((if fragment then [] else doctypeEmits U html) ++ scanLoop U html.length (html.length + 1) ⟨[], fun _ => []⟩ html).map (mkErr html), ?_, ?_⟩
  · unfold docErrors
    refine (sorted_perm _).trans ?_
    rw [parseErrors_eq, ← h3, ← List.map_append]
    unfold scanEmits
    rw [List.append_assoc]
  · intro e he
    obtain ⟨x, hx, rfl⟩ := List.mem_map.1 he
    show x.code ≠ _
    rcases List.mem_append.1 hx with hx | hx
    · cases fragment with
      | true => cases hx
      | false => rcases (doctype_points U html).2.2.2 x hx with h | h <;> rw [h] <;> decide
    · rcases scan_codes U html hx with h | h | h <;> rw [h] <;> decide

/-- The codes that say that the doctype is missing. -/
def aboutDoctype (code : Str) : Bool := code ∈ [c%"expected-doctype-but-got-start-tag", c%"expected-doctype-but-got-chars"]

/-- C100: in a document without NUL characters, exactly one error says that the doctype is missing, unless there is one or the document is blank; and none
does in a fragment. -/
theorem C100_doctype (U : Uni) (fragment : Bool) (max : Nat) (html : Str) (hm : 0 < max) (h0 : '\x00' ∉ html) :
    ((docErrors U fragment max html).countP fun e => aboutDoctype e.code) ≤ 1 ∧
    (((docErrors U fragment max html).countP fun e => aboutDoctype e.code) = 1 ↔
      fragment = false ∧ ¬ HasDoctype html ∧ ∃ c ∈ html, isBlank c = false) := by
  obtain ⟨ps, h1, h2, h3⟩ := nul_part html
  have hps : ps = [] := by
    rw [List.eq_nil_iff_forall_not_mem]
    intro p hp
    exact h0 (List.mem_of_getElem? ((h2 p).1 hp))
  rw [hps, List.map_nil, List.map_eq_nil_iff] at h3
  have hloop : ∀ k, ((scanLoop U html.length (html.length + 1) ⟨[], fun _ => []⟩ html).map (mkErr html) |>.take k).countP
      (fun e => aboutDoctype e.code) = 0 := by
    intro k
    rw [List.countP_eq_zero]
    intro e he
    obtain ⟨x, hx, rfl⟩ := List.mem_map.1 (List.mem_of_mem_take he)
    show ¬ aboutDoctype x.code = true
    rcases scan_codes U html hx with h | h | h <;> rw [h] <;> decide
  have hcount : ((docErrors U fragment max html).countP fun e => aboutDoctype e.code) =
      if fragment then 0 else (doctypeEmits U html).length := by
    unfold docErrors
    rw [(sorted_perm _).countP_eq, parseErrors_eq]
    unfold scanEmits
    rw [h3, List.nil_append, List.map_append]
    cases fragment with
    | true => simpa using hloop max
    | false =>
      simp only [Bool.false_eq_true, if_false]
      have hD := doctype_points U html
      have hlen : (doctypeEmits U html).length ≤ 1 := by
        rcases Classical.em ((∀ c ∈ html, isBlank c = true) ∨ HasDoctype html) with h | h
        · rw [hD.2.1 h]; simp
        · rw [hD.2.2.1 h]; exact Nat.le_refl _
      rw [List.take_append, List.countP_append, hloop, Nat.add_zero, List.take_of_length_le (by simp; omega), List.countP_map, List.countP_eq_length.2]
      intro x hx
      show aboutDoctype x.code = true
      rcases hD.2.2.2 x hx with h | h <;> rw [h] <;> decide
  rw [hcount]
  have hD := doctype_points U html
  cases fragment with
  | true => simp
  | false =>
    simp only [Bool.false_eq_true, if_false, true_and]
    rcases Classical.em ((∀ c ∈ html, isBlank c = true) ∨ HasDoctype html) with h | h
    · rw [hD.2.1 h]
      refine ⟨by simp, ⟨fun k => absurd k (by simp), ?_⟩⟩
      rintro ⟨g1, c, hc, g2⟩
      rcases h with h | h
      · rw [h c hc] at g2; cases g2
      · exact absurd h g1
    · rw [hD.2.2.1 h]
      rw [not_or] at h
      refine ⟨Nat.le_refl _, ⟨fun _ => ⟨h.2, ?_⟩, fun _ => rfl⟩⟩
      obtain ⟨c, hc⟩ := Classical.not_forall.1 h.1
      obtain ⟨h1, h2⟩ := Classical.not_imp.1 hc
      exact ⟨c, h1, by simpa using h2⟩

/-- The error about an end tag that closes nothing: offset, name, offset of its `>`. -/
def strayErr (html : Str) (x : Nat × Str × Nat) : ScanErr :=
  { code := c%"unexpected-end-tag", line := (place html x.1).1, col := (place html x.1).2, tag := some x.2.1, tree := true
    endCol := if (place html x.2.2).1 = (place html x.1).1 then some ((place html x.2.2).2 + 1) else none }

theorem strays_places : ∀ (ps : List Piece) (at_ : Nat) (o : List Str),
    (strays at_ o ps).Pairwise (fun x y => x.1 < y.1) ∧ ∀ x ∈ strays at_ o ps, at_ ≤ x.1 ∧ x.1 < x.2.2 ∧ x.2.2 < at_ + (srcs ps).length
  | [], at_, o => by simp [strays]
  | .text t :: ps, at_, o => by
    obtain ⟨h1, h2⟩ := strays_places ps (at_ + t.length) o
    rw [strays, srcs_cons, List.length_append]
    refine ⟨h1, fun x hx => ?_⟩
    have := h2 x hx
    have e : (Piece.text t).src.length = t.length := rfl
    omega
  | .comment d :: ps, at_, o => by
    obtain ⟨h1, h2⟩ := strays_places ps (at_ + (Piece.comment d).src.length) o
    rw [strays, srcs_cons, List.length_append]
    refine ⟨h1, fun x hx => ?_⟩
    have := h2 x hx
    omega
  | .decl d :: ps, at_, o => by
    obtain ⟨h1, h2⟩ := strays_places ps (at_ + (Piece.decl d).src.length) o
    rw [strays, srcs_cons, List.length_append]
    refine ⟨h1, fun x hx => ?_⟩
    have := h2 x hx
    omega
  | .start name attrs :: ps, at_, o => by
    obtain ⟨h1, h2⟩ := strays_places ps (at_ + (Piece.start name attrs).src.length) (openTag name attrs o)
    rw [strays, srcs_cons, List.length_append]
    refine ⟨h1, fun x hx => ?_⟩
    have := h2 x hx
    omega
  | .close name attrs :: ps, at_, o => by
    rw [strays, srcs_cons, List.length_append]
    have hlen : (Piece.close name attrs).src.length = 3 + name.length + attrs.length := by
      simp only [Piece.src, List.length_append, List.length_cons, List.length_nil]
      omega
    split
    · obtain ⟨h1, h2⟩ := strays_places ps (at_ + (Piece.close name attrs).src.length) o
      refine ⟨List.pairwise_cons.2 ⟨fun x hx => ?_, h1⟩, fun x hx => ?_⟩
      · have := h2 x hx
        show at_ < x.1
        omega
      · rcases List.mem_cons.1 hx with rfl | hx
        · show at_ ≤ at_ ∧ at_ < at_ + 2 + name.length + attrs.length ∧ at_ + 2 + name.length + attrs.length < _
          omega
        · have := h2 x hx
          omega
    · obtain ⟨h1, h2⟩ := strays_places ps (at_ + (Piece.close name attrs).src.length) (closeTag name o)
      refine ⟨h1, fun x hx => ?_⟩
      have := h2 x hx
      omega

theorem stands_nil : Stands ⟨[], fun _ => []⟩ [] := ⟨rfl, fun _ => rfl⟩

/-- The error at the end of the input. -/
def endErr (html code : Str) : ScanErr := { code := code, line := (place html (html.length - 1)).1, col := (place html (html.length - 1)).2 }

theorem tags_eq (U : Uni) (fragment : Bool) (max : Nat) (ps : List Piece) (z : Str) (more : List Str) (hok : ∀ p ∈ ps, p.Ok) (h0 : '\x00' ∉ srcs ps ++ z)
    (hd : fragment = true ∨ HasDoctype (srcs ps ++ z)) (hz : z = [] ∧ more = [] ∨ ∃ code, Cut z code ∧ more = [code]) :
    docErrors U fragment max (srcs ps ++ z) = ((strays 0 [] ps).map (strayErr (srcs ps ++ z)) ++ more.map (endErr (srcs ps ++ z))).take max := by
  obtain ⟨q1, q2⟩ := strays_places ps 0 []
  rw [Nat.zero_add] at q2
  have hn : nullEmits ((srcs ps ++ z).length + 1) 0 (srcs ps ++ z) = [] := by
    obtain ⟨qs, _, h2, h3⟩ := nul_part (srcs ps ++ z)
    have : qs = [] := by
      rw [List.eq_nil_iff_forall_not_mem]
      intro p hp
      exact h0 (List.mem_of_getElem? ((h2 p).1 hp))
    rw [this, List.map_nil, List.map_eq_nil_iff] at h3
    exact h3
  have hdt : (if fragment then [] else doctypeEmits U (srcs ps ++ z)) = [] := by
    cases fragment with
    | true => rfl
    | false =>
      rcases hd with hd | hd
      · cases hd
      · exact (doctype_points U (srcs ps ++ z)).2.1 (.inr hd)
  have hz' : z = [] ∨ ∃ r, z = '<' :: r := by
    rcases hz with ⟨h, -⟩ | ⟨code, h, -⟩
    · exact .inl h
    · cases h <;> exact .inr ⟨_, rfl⟩
  have hcut : ∀ m o', z.length < m → scanLoop U (srcs ps ++ z).length m o' z = more.map fun code => { code := code, pos := (srcs ps ++ z).length - 1 } := by
    intro m o' hm
    cases m with
    | zero => omega
    | succ m =>
      rcases hz with ⟨rfl, rfl⟩ | ⟨code, h, rfl⟩
      · rfl
      · exact scan_cut U _ m o' h
  obtain ⟨m, o', hm, hs⟩ := scan_then U (srcs ps ++ z).length z hz' ps [] ((srcs ps ++ z).length + 1) ⟨[], fun _ => []⟩ [] hok (by simp) stands_nil
    (by rw [List.length_append]; omega) (by rw [List.length_append]; omega)
  rw [List.nil_append, ← List.length_append, Nat.sub_self, hcut m o' hm] at hs
  have he : (scanEmits U fragment (srcs ps ++ z)).map (mkErr (srcs ps ++ z)) = (strays 0 [] ps).map (strayErr (srcs ps ++ z)) ++ more.map (endErr (srcs ps ++ z)) := by
    unfold scanEmits
    rw [hn, hdt, hs, List.nil_append, List.nil_append, List.map_append, List.map_map, List.map_map]
    congr 1
    · refine List.map_congr_left ?_
      intro x hx
      have hx2 := q2 x hx
      have hl : (srcs ps ++ z).length = (srcs ps).length + z.length := List.length_append
      show mkErr (srcs ps ++ z) (strayEmit x) = _
      unfold mkErr strayErr strayEmit
      dsimp only
      rw [lineCol_place _ _ (by omega : x.1 < _), lineCol_place _ _ (by omega : x.2.2 < _)]
    · refine List.map_congr_left ?_
      intro x hx
      have hpos : 0 < (srcs ps ++ z).length := by
        rw [List.length_append]
        rcases hz with ⟨-, rfl⟩ | ⟨code, h, -⟩
        · cases hx
        · cases h <;> simp <;> omega
      show mkErr (srcs ps ++ z) _ = _
      unfold mkErr endErr
      dsimp only
      rw [lineCol_place _ _ (by omega)]
  unfold docErrors
  rw [parseErrors_eq, he]
  refine sorted_self ?_
  refine List.Pairwise.sublist (List.take_sublist _ _) ?_
  rw [List.pairwise_append]
  refine ⟨?_, ?_, ?_⟩
  · rw [List.pairwise_map]
    refine q1.imp ?_
    intro x y hxy
    rw [errLe_iff]
    exact place_mono _ (Nat.le_of_lt hxy)
  · rcases hz with ⟨-, rfl⟩ | ⟨code, -, rfl⟩
    · exact List.Pairwise.nil
    · exact List.pairwise_singleton _ _
  · intro a ha b hb
    obtain ⟨x, hx, rfl⟩ := List.mem_map.1 ha
    obtain ⟨y, hy, rfl⟩ := List.mem_map.1 hb
    have hx2 := q2 x hx
    rw [errLe_iff]
    refine place_mono _ ?_
    rw [List.length_append]
    omega

/-- C100: markup that consists of text, comments, a doctype and tags with closed quotes (and no NUL; and with a doctype, unless it is a fragment) has exactly
the errors that a count of its tags by hand gives: the end tags that close nothing, in order, each with its place, name and end. -/
theorem C100_tags (U : Uni) (fragment : Bool) (max : Nat) (ps : List Piece) (hok : ∀ p ∈ ps, p.Ok) (h0 : ∀ p ∈ ps, '\x00' ∉ p.src)
    (hd : fragment = true ∨ HasDoctype (ps.flatMap Piece.src)) :
    docErrors U fragment max (ps.flatMap Piece.src) = ((strays 0 [] ps).map (strayErr (ps.flatMap Piece.src))).take max := by
  have h0' : '\x00' ∉ srcs ps ++ [] := by
    rw [List.append_nil]
    intro k
    obtain ⟨x, hx, hx2⟩ := List.mem_flatMap.1 k
    exact h0 x hx hx2
  have := tags_eq U fragment max ps [] [] hok h0' (by rw [List.append_nil]; exact hd) (.inl ⟨rfl, rfl⟩)
  rw [List.append_nil, List.map_nil, List.append_nil] at this
  exact this

/-- C100: if the input then breaks off inside a tag or a comment, there is one more error, at the last character. -/
theorem C100_cut (U : Uni) (fragment : Bool) (max : Nat) (ps : List Piece) (z code : Str) (hok : ∀ p ∈ ps, p.Ok) (hz : Cut z code)
    (h0 : '\x00' ∉ ps.flatMap Piece.src ++ z) (hd : fragment = true ∨ HasDoctype (ps.flatMap Piece.src ++ z)) :
    docErrors U fragment max (ps.flatMap Piece.src ++ z) =
      ((strays 0 [] ps).map (strayErr (ps.flatMap Piece.src ++ z)) ++ [endErr (ps.flatMap Piece.src ++ z) code]).take max :=
  tags_eq U fragment max ps z [code] hok h0 hd (.inr ⟨code, hz, rfl⟩)

/-- C100: an error about the end of the input says that a tag or a comment that starts somewhere has no end (for inputs without `İ`, whose lower case is
longer). -/
theorem C100_unfinished (U : Uni) (fragment : Bool) (max : Nat) (html : Str) (hI : '\u0130' ∉ html) (e : ScanErr) (h : e ∈ docErrors U fragment max html) :
    Unfinished U html e.code := by
  unfold docErrors at h
  rw [(sorted_perm _).mem_iff, parseErrors_eq] at h
  obtain ⟨x, hx, rfl⟩ := List.mem_map.1 (List.mem_of_mem_take h)
  show Unfinished U html x.code
  unfold scanEmits at hx
  rw [List.mem_append, List.mem_append] at hx
  rcases hx with (hx | hx) | hx
  · rw [nullEmits_eq html _ 0 (by omega), List.mem_map] at hx
    obtain ⟨p, -, rfl⟩ := hx
    constructor <;> intro k <;> exact absurd (show _ = _ from k) (by dsimp only; decide)
  · cases fragment with
    | true => cases hx
    | false =>
      rcases (doctype_points U html).2.2.2 x hx with h | h <;> rw [h] <;> constructor <;> intro k <;> exact absurd k (by decide)
  · exact scan_unfinished U html hI _ _ _ (List.suffix_refl _) x hx

/-- C100: what `to_html` writes for a tree nested as the HTML standard asks, and without quotation marks in attribute names, has no errors: `strict` accepts
it as a fragment, and as a document after a doctype. -/
theorem C100_written (U : Uni) (max : Nat) (forest : List Node) (hg : GoodL [] forest) (hq : PlainNamesL forest) :
    ∃ html, toHtmlCompact U none (.doc forest) = .ok html ∧ docErrors U true max html = [] ∧ strictError U true max html = none ∧
      docErrors U false max (c%"<!DOCTYPE html>" ++ html) = [] ∧ strictError U false max (c%"<!DOCTYPE html>" ++ html) = none := by
  have hf : docErrors U true max (outL forest) = [] := by
    have := C100_tags U true max (piecesL forest) (pieces_okL forest hg hq) ?_ (.inl rfl)
    · have e : (piecesL forest).flatMap Piece.src = outL forest := srcs_piecesL forest
      have s := strays_forest forest [] hg 0 []
      rw [List.append_nil, strays] at s
      rw [e, s, List.map_nil, List.take_nil] at this
      exact this
    · intro p hp k
      apply nul_outL forest hg
      rw [← srcs_piecesL]
      exact List.mem_flatMap.2 ⟨p, hp, k⟩
  have hdoc : docErrors U false max (c%"<!DOCTYPE html>" ++ outL forest) = [] := by
    have e : (Piece.decl c%"DOCTYPE html" :: piecesL forest).flatMap Piece.src = c%"<!DOCTYPE html>" ++ outL forest := by
      rw [List.flatMap_cons, show (piecesL forest).flatMap Piece.src = outL forest from srcs_piecesL forest]; rfl
    have := C100_tags U false max (.decl c%"DOCTYPE html" :: piecesL forest) ?_ ?_ ?_
    · have s := strays_forest forest [] hg (0 + (Piece.decl c%"DOCTYPE html").src.length) []
      rw [List.append_nil, strays] at s
      rw [e, strays, s, List.map_nil, List.take_nil] at this
      exact this
    · intro p hp
      rcases List.mem_cons.1 hp with rfl | hp
      · exact ⟨by decide, quoted_chars (by decide)⟩
      · exact pieces_okL forest hg hq p hp
    · intro p hp k
      rcases List.mem_cons.1 hp with rfl | hp
      · revert k; decide
      · apply nul_outL forest hg
        rw [← srcs_piecesL]
        exact List.mem_flatMap.2 ⟨p, hp, k⟩
    · right
      rw [e]
      exact ⟨[], c%"<!DOCTYPE", c%" html>" ++ outL forest, rfl, by simp, by decide⟩
  refine ⟨outL forest, Props.good_html U hg, hf, ?_, hdoc, ?_⟩
  · unfold strictError; rw [hf]; rfl
  · unfold strictError; rw [hdoc]; rfl

/-! ### Gaps -/

/-- C100 does not hold for raw text (F68): the scan takes the text of a script for markup, so `strict` rejects a valid document. -/
theorem C100_raw_fails : strictError Uni.sample false 100 c%"<!DOCTYPE html><script>x = \"</b>\"</script>" =
    some { code := c%"unexpected-end-tag", line := 1, col := 29, tag := some c%"b", tree := true, endCol := some 33 } := by decide +kernel

/-- C100 does not hold for quotation marks outside attribute values (F69): the rest of the input is taken for one tag, and an end of the input in a tag is
reported where there is none. -/
theorem C100_quote_fails : strictError Uni.sample true 100 c%"<svg><![CDATA[it's]]></svg>" = some { code := c%"eof-in-tag", line := 1, col := 27 } ∧
    strictError Uni.sample true 100 c%"<p a'>x</p>" = some { code := c%"eof-in-tag", line := 1, col := 11 } := by decide +kernel

/-- `strict` does not raise the first error of the input (F70): NUL characters are reported first, and use up the limit. -/
theorem C100_first_fails : strictError Uni.sample true 1 c%"</b>\x00" = some { code := c%"unexpected-null-character", line := 1, col := 5 } ∧
    strictError Uni.sample true 2 c%"</b>\x00" = some { code := c%"unexpected-end-tag", line := 1, col := 1, tag := some c%"b", tree := true, endCol := some 5 } := by
  decide +kernel

/-- The scan (like the parser) does not see the end of a comment that HTML sees in `---!>` (F71). -/
theorem C100_comment_fails : strictError Uni.sample true 100 c%"<!--x---!>y" = some { code := c%"eof-in-comment", line := 1, col := 11 } ∧
    strictError Uni.sample true 100 c%"<!--x--!>y" = none := by decide +kernel

/-! ### Examples -/

/-- A case of `C100_cut`: a tag with an open quote. -/
example : Cut c%"<a title='>" c%"eof-in-tag" ∧
    docErrors Uni.sample true 100 c%"</i>\n<a title='>" =
      [{ code := c%"unexpected-end-tag", line := 1, col := 1, tag := some c%"i", tree := true, endCol := some 5 }, { code := c%"eof-in-tag", line := 2, col := 11 }] := by
  refine ⟨.start (name := c%"a") (attrs := c%" title='>") ?_ (by decide) ?_, by decide +kernel⟩
  · refine ⟨⟨_, _, rfl, by decide⟩, ?_⟩; simp [nameChar]; decide
  · exact (unclosed_iff _).1 (by decide)

/-- A case of `C100_tags`. -/
example : ∃ ps : List Piece, (∀ p ∈ ps, p.Ok) ∧ (∀ p ∈ ps, '\x00' ∉ p.src) ∧
    ps.flatMap Piece.src = c%"<p title=\">\">a\n<div>b</p ></div>" ∧
    docErrors Uni.sample true 100 (ps.flatMap Piece.src) =
      [{ code := c%"unexpected-end-tag", line := 2, col := 7, tag := some c%"p", tree := true, endCol := some 12 }] := by
  refine ⟨[.start c%"p" c%" title=\">\"", .text c%"a\n", .start c%"div" [], .text c%"b", .close c%"p" c%" ", .close c%"div" []], ?_, by decide, by decide, by decide +kernel⟩
  have hp : PlainTag c%"p" := by refine ⟨⟨_, _, rfl, by decide⟩, ?_⟩; simp [nameChar]; decide
  have hdiv : PlainTag c%"div" := by refine ⟨⟨_, _, rfl, by decide⟩, ?_⟩; simp [nameChar]; decide
  have hq : Quoted c%" title=\">\"" := by
    refine quoted_append (a := c%" title=") (quoted_chars (by decide)) (.str (q := '"') (b := c%">") (.inl rfl) (by decide) .nil)
  intro p h
  simp only [List.mem_cons, List.not_mem_nil, or_false] at h
  rcases h with rfl | rfl | rfl | rfl | rfl | rfl
  · exact ⟨hp, hq, by decide⟩
  · show '<' ∉ _; decide
  · exact ⟨hdiv, .nil, by decide⟩
  · show '<' ∉ _; decide
  · exact ⟨hp, quoted_chars (by decide), by decide⟩
  · exact ⟨hdiv, .nil, by decide⟩

/-- Errors of each kind. -/
example : docErrors Uni.sample false 100 c%"<P CLASS=a>\x00</b><!-- x" =
    [{ code := c%"expected-doctype-but-got-start-tag", line := 1, col := 11, tag := some c%"p", tree := true, endCol := some 12 },
     { code := c%"unexpected-null-character", line := 1, col := 12 },
     { code := c%"unexpected-end-tag", line := 1, col := 13, tag := some c%"b", tree := true, endCol := some 17 },
     { code := c%"eof-in-comment", line := 1, col := 22 }] := by decide +kernel

end JH.Eng
