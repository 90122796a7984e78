import Verif.Lemmas.ErrScan
/-! The markup of good trees, as pieces (C100). -/
namespace JH.Eng
open JH.Spec

mutual
/-- The pieces of the markup of a good node. -/
def pieces : Node → List Piece
  | .text t => [.text (escapeText t)]
  | .comment d => [.comment d]
  | .elem name _ as kids _ _ =>
    .start name (as.flatMap attrText) :: (if name ∈ emptyNames then [] else piecesL kids ++ [.close name []])
  | _ => []
/-- The pieces of the markup of good siblings. -/
def piecesL : List Node → List Piece
  | [] => []
  | n :: ns => pieces n ++ piecesL ns
end

theorem srcs_append (a b : List Piece) : srcs (a ++ b) = srcs a ++ srcs b := List.flatMap_append

theorem srcs_cons (p : Piece) (b : List Piece) : srcs (p :: b) = p.src ++ srcs b := rfl

mutual
theorem srcs_pieces : ∀ n : Node, srcs (pieces n) = out n
  | .text t => by simp [pieces, srcs, Piece.src, out]
  | .comment d => by simp [pieces, srcs, Piece.src, out]
  | .pi _ => rfl
  | .doctype _ _ _ => rfl
  | .doc _ => rfl
  | .elem name _ as kids _ _ => by
    rw [pieces, out, srcs_cons]
    by_cases h : name ∈ emptyNames
    · rw [if_pos h, if_pos h]; simp [srcs, Piece.src]
    · rw [if_neg h, if_neg h, srcs_append, srcs_piecesL kids]
      simp [srcs, Piece.src]
theorem srcs_piecesL : ∀ ns : List Node, srcs (piecesL ns) = outL ns
  | [] => rfl
  | n :: ns => by rw [piecesL, srcs_append, srcs_pieces n, srcs_piecesL ns, outL]
end

/-! ### Attributes -/

theorem quoted_append {a b : Str} (ha : Quoted a) (hb : Quoted b) : Quoted (a ++ b) := by
  induction ha with
  | nil => exact hb
  | char h1 h2 h3 _ ih => exact .char h1 h2 h3 ih
  | str hq hn _ ih =>
    rw [List.cons_append, List.append_assoc, List.cons_append]
    exact .str hq hn ih

theorem quoted_chars {a : Str} (h : ∀ c ∈ a, c ≠ '"' ∧ c ≠ '\'' ∧ c ≠ '>') : Quoted a := by
  induction a with
  | nil => exact .nil
  | cons c a ih =>
    obtain ⟨h1, h2, h3⟩ := h c (by simp)
    exact .char h1 h2 h3 (ih fun x hx => h x (by simp [hx]))

theorem attrText_quoted {a : Str × Option Str} (h : PlainAttr a.1) (hq : '"' ∉ a.1 ∧ '\'' ∉ a.1) : Quoted (attrText a) := by
  unfold attrText
  refine quoted_append (quoted_chars ?_) ?_
  · intro c hc
    rcases List.mem_cons.1 hc with rfl | hc
    · decide
    · refine ⟨?_, ?_, ((h.2 c hc).1).2.2.2.2.2.2.2.2.2⟩
      · rintro rfl; exact hq.1 hc
      · rintro rfl; exact hq.2 hc
  · split
    · exact .nil
    · have hqc := quote_cases (a.2.getD [])
      have hn := (C02_attr_contained _ hqc (a.2.getD [])).1
      rw [List.cons_append, List.cons_append]
      exact .char (by decide) (by decide) (by decide) (.str hqc hn .nil)

theorem attrText_last {a : Str × Option Str} (h : PlainAttr a.1) : ∃ s c, attrText a = s ++ [c] ∧ isBlank c = false ∧ c ≠ '/' := by
  unfold attrText
  split
  · refine ⟨' ' :: a.1.dropLast, a.1.getLast h.1, ?_, ?_, ?_⟩
    · rw [List.append_nil, List.cons_append, List.dropLast_concat_getLast]
    · obtain ⟨⟨_, _, h1, h2, h3, h4, h5, _⟩, _⟩ := h.2 _ (List.getLast_mem h.1)
      simp [isBlank, *]
    · exact (h.2 _ (List.getLast_mem h.1)).1.2.2.2.2.2.2.2.2.1
  · refine ⟨_, _, (List.append_assoc _ _ _).symm, ?_, ?_⟩ <;> rcases quote_cases (a.2.getD []) with e | e <;> rw [e] <;> decide

theorem slashed_last {s : Str} {c : Char} (h1 : isBlank c = false) (h2 : c ≠ '/') : slashed (s ++ [c]) = false := by
  unfold slashed
  rw [List.reverse_append, List.reverse_singleton, List.singleton_append, List.dropWhile_cons, if_neg (by simp [h1])]
  simp [h2]

theorem attrs_quoted {as : List (Str × Option Str)} (h : ∀ a ∈ as, PlainAttr a.1) (hq : ∀ a ∈ as, '"' ∉ a.1 ∧ '\'' ∉ a.1) : Quoted (as.flatMap attrText) := by
  induction as with
  | nil => exact .nil
  | cons a as ih =>
    rw [List.flatMap_cons]
    exact quoted_append (attrText_quoted (h a (by simp)) (hq a (by simp))) (ih (fun x hx => h x (by simp [hx])) (fun x hx => hq x (by simp [hx])))

theorem attrs_open {as : List (Str × Option Str)} (h : ∀ a ∈ as, PlainAttr a.1) : slashed (as.flatMap attrText) = false := by
  rcases List.eq_nil_or_concat as with rfl | ⟨l, a, rfl⟩
  · rfl
  · rw [List.concat_eq_append] at h ⊢
    obtain ⟨s, c, e, h1, h2⟩ := attrText_last (h a (by simp))
    rw [List.flatMap_append, List.flatMap_singleton, e, ← List.append_assoc]
    exact slashed_last h1 h2

theorem attrs_head (as : List (Str × Option Str)) : ∀ c ∈ (as.flatMap attrText).head?, isBlank c = true ∨ c = '/' := by
  intro c hc
  cases as with
  | nil => cases hc
  | cons a as =>
    rw [List.flatMap_cons, attrText] at hc
    simp only [List.cons_append, List.head?_cons, Option.mem_def, Option.some.injEq] at hc
    subst hc
    exact .inl rfl

/-! ### Trees -/

mutual
theorem pieces_ok {anc : List Str} : ∀ n : Node, Good anc n → PlainNames n → ∀ p ∈ pieces n, p.Ok
  | .text t, _, _, p, hp => by
    rw [pieces, List.mem_singleton] at hp; subst hp; exact escape_no_lt t
  | .comment d, h, _, p, hp => by
    rw [pieces, List.mem_singleton] at hp; subst hp; rw [Good] at h; exact h
  | .pi _, h, _, p, hp => by simp [Good] at h
  | .doctype _ _ _, h, _, p, hp => by simp [Good] at h
  | .doc _, h, _, p, hp => by simp [Good] at h
  | .elem name ns as kids tpl content, h, hq, p, hp => by
    rw [Good] at h
    obtain ⟨-, -, -, h1, h2, h3, h4, h5, h6⟩ := h
    rw [PlainNames] at hq
    rw [pieces, List.mem_cons] at hp
    rcases hp with rfl | hp
    · exact ⟨h1, attrs_quoted (fun a ha => (h3.2 a ha).1) hq.1, attrs_head as⟩
    · split at hp
      · cases hp
      · rcases List.mem_append.1 hp with hp | hp
        · exact pieces_okL kids h6 hq.2 p hp
        · rw [List.mem_singleton] at hp; subst hp
          exact ⟨h1, .nil, by simp⟩
theorem pieces_okL {anc : List Str} : ∀ ns : List Node, GoodL anc ns → PlainNamesL ns → ∀ p ∈ piecesL ns, p.Ok
  | [], _, _, p, hp => by cases hp
  | n :: ns, h, hq, p, hp => by
    rw [GoodL] at h
    rw [PlainNamesL] at hq
    rw [piecesL, List.mem_append] at hp
    rcases hp with hp | hp
    · exact pieces_ok n h.1 hq.1 p hp
    · exact pieces_okL ns h.2.2 hq.2 p hp
end

theorem enders_block {name : Str} (h1 : name ∉ ownRules) (h2 : name ∈ paragraphEnders) : name ∈ blockNames := by
  have : ∀ x ∈ paragraphEnders, x ∈ ownRules ∨ x ∈ blockNames := by decide
  exact (this _ h2).resolve_left h1

theorem endless_empty {name : Str} (h1 : name ∉ ownRules) : name ∈ endless ↔ name ∈ emptyNames := by
  have a : ∀ x ∈ endless, x ∈ ownRules ∨ x ∈ emptyNames := by decide
  have b : ∀ x ∈ emptyNames, x ∈ endless := by decide
  exact ⟨fun h => (a _ h).resolve_left h1, b _⟩

theorem paragraphOpen_mem {l : List Str} (h : paragraphOpen l = true) : c%"p" ∈ l := by
  induction l with
  | nil => cases h
  | cons n l ih =>
    rw [paragraphOpen, Bool.or_eq_true, Bool.and_eq_true] at h
    rcases h with h | h
    · rw [of_decide_eq_true h]; simp
    · exact List.mem_cons_of_mem _ (ih h.2)

theorem openTag_good {anc : List Str} {name : Str} {as : List (Str × Option Str)} (h2 : name ∉ ownRules) (h3 : GoodAttrs name as) (h4 : MayNest anc name) :
    openTag name (as.flatMap attrText) anc = if name ∈ emptyNames then anc else name :: anc := by
  unfold openTag
  have hno : ¬ (name ∈ paragraphEnders ∧ paragraphOpen anc = true) := fun k => h4.1 (enders_block h2 k.1) (paragraphOpen_mem k.2)
  rw [if_neg hno, attrs_open fun a ha => (h3.2 a ha).1]
  simp only [endless_empty h2, Bool.false_eq_true, or_false]

mutual
theorem strays_node : ∀ (n : Node) (anc : List Str), Good anc n → ∀ (at_ : Nat) (rest : List Piece),
    strays at_ anc (pieces n ++ rest) = strays (at_ + (srcs (pieces n)).length) anc rest
  | .text t, anc, h, at_, rest => by
    rw [pieces, List.singleton_append, strays]
    simp [srcs, Piece.src]
  | .comment d, anc, h, at_, rest => by
    rw [pieces, List.singleton_append, strays]
    simp [srcs]
  | .pi _, anc, h, at_, rest => by simp [Good] at h
  | .doctype _ _ _, anc, h, at_, rest => by simp [Good] at h
  | .doc _, anc, h, at_, rest => by simp [Good] at h
  | .elem name ns as kids tpl content, anc, h, at_, rest => by
    rw [Good] at h
    obtain ⟨-, -, -, h1, h2, h3, h4, h5, h6⟩ := h
    rw [pieces, List.cons_append, strays, openTag_good h2 h3 h4, srcs_cons, List.length_append]
    by_cases hv : name ∈ emptyNames
    · rw [if_pos hv, if_pos hv]
      simp [srcs]
    · rw [if_neg hv, if_neg hv, List.append_assoc, strays_forest kids (name :: anc) h6, List.singleton_append, strays]
      rw [if_neg, closeTag, if_pos rfl, srcs_append, List.length_append]
      · congr 1
        simp only [srcs, List.flatMap_singleton]
        omega
      · rintro (k | k)
        · exact hv (by rw [k]; decide)
        · exact k (by simp)
theorem strays_forest : ∀ (ns : List Node) (anc : List Str), GoodL anc ns → ∀ (at_ : Nat) (rest : List Piece),
    strays at_ anc (piecesL ns ++ rest) = strays (at_ + (srcs (piecesL ns)).length) anc rest
  | [], anc, h, at_, rest => by simp [piecesL, srcs]
  | n :: ns, anc, h, at_, rest => by
    rw [GoodL] at h
    rw [piecesL, List.append_assoc, strays_node n anc h.1, strays_forest ns anc h.2.2, srcs_append, List.length_append, Nat.add_assoc]
end

/-! ### NUL -/

theorem nul_escape {t : Str} (h : '\x00' ∉ t) : '\x00' ∉ escapeText t := by
  rw [escapeText_eq]
  simp only [List.mem_flatMap, not_exists, not_and]
  intro c hc
  unfold esc1
  split; · decide
  split; · decide
  split; · decide
  intro e
  rw [List.mem_singleton] at e
  subst e
  exact h hc

theorem nul_escapeAttr {q : Char} (hq : q = '"' ∨ q = '\'') {t : Str} (h : '\x00' ∉ t) : '\x00' ∉ escapeAttr q t := by
  rw [escapeAttr_eq hq]
  simp only [List.mem_flatMap, not_exists, not_and]
  intro c hc
  unfold escA1 esc1
  split
  · split <;> decide
  split; · decide
  split; · decide
  split; · decide
  intro e
  rw [List.mem_singleton] at e
  subst e
  exact h hc

theorem nul_attr {a : Str × Option Str} (h : PlainAttr a.1) {v : Str} (hv : a.2 = some v) (h2 : PlainText v) : '\x00' ∉ attrText a := by
  unfold attrText
  rw [hv, Option.getD_some]
  have hn : '\x00' ∉ a.1 := fun k => (h.2 _ k).1.2.2.2.2.2.2.2.1 rfl
  have hqc := quote_cases v
  have hz := nul_escapeAttr hqc h2.2
  have hq0 : '\x00' ≠ chooseAttrQuote none v := by rcases hqc with e | e <;> rw [e] <;> decide
  split
  · simp [hn]
  · simp [hn, hz, hq0]

mutual
theorem nul_out {anc : List Str} : ∀ n : Node, Good anc n → '\x00' ∉ out n
  | .text t, h => by rw [Good] at h; rw [out]; exact nul_escape h.2.2
  | .comment d, h => by
    rw [Good] at h; rw [out]
    have := h.1.2
    simp [this]
  | .pi _, h => by simp [Good] at h
  | .doctype _ _ _, h => by simp [Good] at h
  | .doc _, h => by simp [Good] at h
  | .elem name ns as kids tpl content, h => by
    rw [Good] at h
    obtain ⟨-, -, -, h1, h2, h3, h4, h5, h6⟩ := h
    have hn : '\x00' ∉ name := fun k => (h1.2 _ k).2.2.2.2.2.2.2.1 rfl
    have ha : '\x00' ∉ as.flatMap attrText := by
      simp only [List.mem_flatMap, not_exists, not_and]
      intro a ha
      obtain ⟨hp, v, hv, ht, -⟩ := h3.2 a ha
      exact nul_attr hp hv ht
    have hk := nul_outL kids h6
    rw [out]
    split <;> simp only [List.mem_cons, List.mem_append, List.not_mem_nil, or_false, not_or] <;> simp [hn, ha, hk]
theorem nul_outL {anc : List Str} : ∀ ns : List Node, GoodL anc ns → '\x00' ∉ outL ns
  | [], _ => by simp [outL]
  | n :: ns, h => by
    rw [GoodL] at h
    rw [outL, List.mem_append]
    rintro (k | k)
    · exact nul_out n h.1 k
    · exact nul_outL ns h.2.2 k
end

end JH.Eng
