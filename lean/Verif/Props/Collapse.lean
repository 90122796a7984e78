import Verif.Props.Transforms
import Verif.Props.TextOps
import Verif.Spec.Collapse
import Verif.Lemmas.PrettyOut
/-! Property C91: CollapseWhitespace. -/
namespace JH
open Spec

theorem words_nil {t : Str} : words t = [] ↔ ∀ c ∈ t, ws c = true := by
  induction t with
  | nil => simp [words]
  | cons c t ih =>
    by_cases hc : ws c = true
    · rw [words_ws c t hc, ih]; simp [hc]
    · have hc' : ws c = false := by simpa using hc
      rw [words_cons c t hc']; simp [hc']

/-- The text ends with white space. -/
abbrev endWs (t : Str) : Bool := (t.getLast?.map ws).getD false

theorem endWs_app (a : Str) {b : Str} (h : b ≠ []) : endWs (a ++ b) = endWs b := by
  simp only [endWs]
  rw [List.getLast?_append, List.getLast?_eq_some_getLast h]
  rfl

theorem endWs_blank {t : Str} (h : t ≠ []) (hb : ∀ c ∈ t, ws c = true) : endWs t = true := by
  simp only [endWs]
  rw [List.getLast?_eq_some_getLast h]
  exact hb _ (List.getLast_mem h)

theorem collapseLoop_word (u v : Str) (hu : ∀ c ∈ u, ws c = false) : ∀ b, u ≠ [] → collapseLoop b (u ++ v) = u ++ collapseLoop false v := by
  induction u with
  | nil => intro b h; exact absurd rfl h
  | cons c u ih =>
    intro b _
    have hc := hu c (by simp)
    simp only [List.cons_append, collapseLoop, ws_eq, hc, Bool.false_eq_true, if_false]
    by_cases hu0 : u = []
    · rw [hu0]; rfl
    · rw [ih (fun x hx => hu x (by simp [hx])) false hu0]

theorem join_cons (sep w : Str) (r : List Str) : join sep (w :: r) = w ++ if r = [] then [] else sep ++ join sep r := by
  cases r with
  | nil => simp [join]
  | cons a r => simp [join]

theorem collapseLoop_true (n : Nat) : ∀ t : Str, t.length ≤ n →
    collapseLoop true t = if words t = [] then [] else join [' '] (words t) ++ (if endWs t then [' '] else []) := by
  induction n with
  | zero =>
    intro t h
    have : t = [] := by simpa using h
    subst this; rfl
  | succ n ih =>
    intro t h
    cases t with
    | nil => rfl
    | cons c t =>
      simp only [List.length_cons] at h
      by_cases hc : ws c = true
      · rw [words_ws c t hc]
        simp only [collapseLoop, ws_eq, hc, if_true]
        rw [ih t (by omega)]
        by_cases hw : words t = []
        · rw [if_pos hw, if_pos hw]
        · rw [if_neg hw, if_neg hw]
          have ht : t ≠ [] := by rintro rfl; exact hw rfl
          have := endWs_app [c] ht
          simp only [List.singleton_append] at this
          rw [this]
      · have hc' : ws c = false := by simpa using hc
        rw [words_cons c t hc', if_neg (by simp)]
        have hsplit : t = t.takeWhile (fun x => !ws x) ++ t.dropWhile (fun x => !ws x) := List.takeWhile_append_dropWhile.symm
        have hu : ∀ x ∈ t.takeWhile (fun x => !ws x), ws x = false := fun x hx => by
          have := mem_takeWhile_true x hx
          simpa using this
        have hlen : (t.dropWhile (fun x => !ws x)).length ≤ n := Nat.le_trans (List.dropWhile_sublist _).length_le (by omega)
        have hhead : ∀ x r, t.dropWhile (fun x => !ws x) = x :: r → ws x = true := by
          intro x r e
          have h2 : ((t.dropWhile (fun x => !ws x)).head?.all fun x => !(!ws x)) = true := by
            rw [Option.all_eq_true]
            intro y hy
            have := List.head?_dropWhile_not (fun x => !ws x) t
            rw [hy] at this
            simpa using this
          rw [e] at h2
          simpa using h2
        generalize t.takeWhile (fun x => !ws x) = u at *
        generalize t.dropWhile (fun x => !ws x) = v at *
        subst hsplit
        rw [show c :: (u ++ v) = (c :: u) ++ v from rfl, collapseLoop_word (c :: u) v (by intro x hx; rcases List.mem_cons.1 hx with rfl | hx; exact hc'; exact hu x hx)
          true (by simp), join_cons]
        cases v with
        | nil =>
          have : endWs (c :: u ++ []) = false := by
            simp only [endWs, List.append_nil]
            rw [List.getLast?_eq_some_getLast (by simp)]
            simp only [Option.map_some, Option.getD_some]
            rcases List.mem_cons.1 (List.getLast_mem (l := c :: u) (by simp)) with e | e
            · rw [e]; exact hc'
            · exact hu _ e
          rw [this]
          simp [words, collapseLoop]
        | cons s v =>
          have hs := hhead s v rfl
          simp only [List.length_cons] at hlen
          rw [words_ws s v hs, endWs_app (c :: u) (by simp)]
          simp only [collapseLoop, ws_eq, hs, if_true, Bool.false_eq_true, if_false]
          rw [ih v (by omega)]
          by_cases hw : words v = []
          · rw [if_pos hw, if_pos hw, endWs_blank (by simp)]
            · simp
            · intro x hx
              rcases List.mem_cons.1 hx with rfl | hx
              · exact hs
              · exact words_nil.1 hw x hx
          · rw [if_neg hw, if_neg hw]
            have hv : v ≠ [] := by rintro rfl; exact hw rfl
            have := endWs_app [s] hv
            simp only [List.singleton_append] at this
            rw [this]
            simp

/-- Collapsing keeps single spaces at the ends. -/
theorem collapse_tidy (t : Str) (ht : t ≠ []) : collapse t = tidy false false t := by
  rw [collapse_eq]
  cases t with
  | nil => exact absurd rfl ht
  | cons c t =>
    by_cases hc : ws c = true
    · simp only [collapseLoop, ws_eq, hc, if_true, Bool.false_eq_true, if_false]
      rw [collapseLoop_true t.length t (Nat.le_refl _), tidy, words_ws c t hc]
      by_cases hw : words t = []
      · rw [if_pos hw, if_pos hw]; rfl
      · rw [if_neg hw, if_neg hw]
        have ht : t ≠ [] := by rintro rfl; exact hw rfl
        have := endWs_app [c] ht
        simp only [List.singleton_append, endWs] at this
        simp [hc, endWs, this]
    · have hc' : ws c = false := by simpa using hc
      have e : collapseLoop false (c :: t) = collapseLoop true (c :: t) := by
        simp only [collapseLoop, ws_eq, hc', Bool.false_eq_true, if_false]
      rw [e, collapseLoop_true _ (c :: t) (Nat.le_refl _), tidy]
      simp [words_cons c t hc', hc', endWs]

/-- What words start and end with. -/
theorem words_ends (n : Nat) : ∀ t : Str, t.length ≤ n → ∀ w ∈ words t, w ≠ [] ∧ ∀ c ∈ w, ws c = false := by
  induction n with
  | zero =>
    intro t h
    have : t = [] := by simpa using h
    subst this; intro w hw; simp [words] at hw
  | succ n ih =>
    intro t h w hw
    cases t with
    | nil => simp [words] at hw
    | cons c t =>
      simp only [List.length_cons] at h
      by_cases hc : ws c = true
      · rw [words_ws c t hc] at hw; exact ih t (by omega) w hw
      · have hc' : ws c = false := by simpa using hc
        rw [words_cons c t hc'] at hw
        rcases List.mem_cons.1 hw with rfl | hw
        · refine ⟨by simp, fun x hx => ?_⟩
          rcases List.mem_cons.1 hx with rfl | hx
          · exact hc'
          · have := mem_takeWhile_true x hx
            simpa using this
        · exact ih _ (Nat.le_trans (List.dropWhile_sublist _).length_le (by omega)) w hw

theorem join_head (l : List Str) (hl : l ≠ []) (h : ∀ w ∈ l, w ≠ [] ∧ ∀ c ∈ w, ws c = false) : ∃ c r, join [' '] l = c :: r ∧ ws c = false := by
  cases l with
  | nil => exact absurd rfl hl
  | cons w l =>
    rw [join_cons]
    obtain ⟨h1, h2⟩ := h w (by simp)
    cases w with
    | nil => exact absurd rfl h1
    | cons c w => exact ⟨c, _, rfl, h2 c (by simp)⟩

theorem join_last (l : List Str) : l ≠ [] → (∀ w ∈ l, w ≠ [] ∧ ∀ c ∈ w, ws c = false) → ∃ c r, join [' '] l = r ++ [c] ∧ ws c = false := by
  induction l with
  | nil => intro h; exact absurd rfl h
  | cons w l ih =>
    intro _ h
    rw [join_cons]
    by_cases hl : l = []
    · rw [if_pos hl, List.append_nil]
      obtain ⟨h1, h2⟩ := h w (by simp)
      exact ⟨w.getLast h1, w.dropLast, (List.dropLast_concat_getLast h1).symm, h2 _ (List.getLast_mem h1)⟩
    · rw [if_neg hl]
      obtain ⟨c, r, e, hc⟩ := ih hl fun w hw => h w (by simp [hw])
      exact ⟨c, w ++ ([' '] ++ r), by rw [e]; simp, hc⟩

theorem ls_word (c : Char) (r : Str) (h : ws c = false) : lstripP isHtmlSpace (c :: r) = c :: r := by
  simp [lstripP, ws_eq, h]

theorem rs_word (c : Char) (r : Str) (h : ws c = false) : rstripP isHtmlSpace (r ++ [c]) = r ++ [c] := by
  simp [rstripP, ws_eq, h]

theorem rs_space (r : Str) : rstripP isHtmlSpace (r ++ [' ']) = rstripP isHtmlSpace r := by
  simp [rstripP, show isHtmlSpace ' ' = true by decide]

theorem ls_space (r : Str) : lstripP isHtmlSpace (' ' :: r) = lstripP isHtmlSpace r := by
  simp [lstripP, show isHtmlSpace ' ' = true by decide]

theorem tidy_ls (l r : Bool) (t : Str) : lstripP isHtmlSpace (tidy l r t) = tidy true r t := by
  simp only [tidy]
  by_cases hw : words t = []
  · rw [if_pos hw, if_pos hw]
    cases l <;> cases r <;> simp [lstripP, show isHtmlSpace ' ' = true by decide]
  · rw [if_neg hw, if_neg hw]
    obtain ⟨c, rr, e, hc⟩ := join_head (words t) hw (words_ends t.length t (Nat.le_refl _))
    rw [e]
    simp only [Bool.not_true, Bool.and_false, Bool.false_eq_true, if_false, List.nil_append, List.cons_append]
    split
    · simp only [List.cons_append, List.nil_append]
      rw [ls_space, ls_word _ _ hc]
    · rw [List.nil_append, List.cons_append, ls_word _ _ hc]

theorem tidy_rs (l r : Bool) (t : Str) : rstripP isHtmlSpace (tidy l r t) = tidy l true t := by
  simp only [tidy]
  by_cases hw : words t = []
  · rw [if_pos hw, if_pos hw]
    cases l <;> cases r <;> simp [rstripP, show isHtmlSpace ' ' = true by decide]
  · rw [if_neg hw, if_neg hw]
    obtain ⟨c, rr, e, hc⟩ := join_last (words t) hw (words_ends t.length t (Nat.le_refl _))
    rw [e]
    simp only [Bool.not_true, Bool.and_false, Bool.false_eq_true, if_false, List.append_nil]
    generalize (if ((Option.map ws t.head?).getD false && !l) = true then [' '] else []) = a
    rw [← List.append_assoc]
    split
    · rw [rs_space, rs_word _ _ hc]
    · rw [List.append_nil, rs_word _ _ hc]

theorem tidy_tail (r : Bool) (t : Str) (h : (tidy false r t).head? = some ' ') : (tidy false r t).tail = tidy true r t := by
  simp only [tidy] at h ⊢
  by_cases hw : words t = []
  · rw [if_pos hw] at h ⊢
    rw [if_pos hw]
    cases r <;> simp
  · rw [if_neg hw] at h ⊢
    rw [if_neg hw]
    obtain ⟨c, rr, e, hc⟩ := join_head (words t) hw (words_ends t.length t (Nat.le_refl _))
    rw [e] at h ⊢
    cases hh : (Option.map ws t.head?).getD false with
    | true => simp
    | false =>
      simp only [hh, Bool.false_and, Bool.false_eq_true, if_false, List.nil_append, List.cons_append, List.head?_cons, Option.some.injEq] at h
      subst h
      simp [ws] at hc

theorem tidy_nohead (r : Bool) (t : Str) (h : (tidy false r t).head? ≠ some ' ') : tidy false r t = tidy true r t := by
  simp only [tidy] at h ⊢
  by_cases hw : words t = []
  · rw [if_pos hw] at h ⊢
    rw [if_pos hw]
    cases r <;> simp at h ⊢
  · rw [if_neg hw] at h ⊢
    rw [if_neg hw]
    cases hh : (Option.map ws t.head?).getD false with
    | true => simp [hh] at h
    | false => simp

/-- The rules a `CollapseWhitespace` transform stands for. -/
def wsRules (U : Uni) (skip : List Str) (trim : Bool) (blocks : List Str) : WsRules := ⟨U.lower, skip, trim, blocks⟩

theorem unseen_eq (U : Uni) (n : Node) (hn : NamedTree n) : notRendered U n = unseen U.lower n := by
  cases n with
  | elem name ns as kids tpl content =>
    simp only [notRendered, unseen, if_neg hn.name.1]
    rw [Bool.eq_iff_iff]
    simp only [Bool.or_eq_true, Bool.and_eq_true, decide_eq_true_eq, List.any_eq_true, Bool.not_eq_true', nonRendered, List.contains_iff_mem,
      decide_eq_false_iff_not, ← Bool.not_eq_true]
    grind
  | text d => cases d <;> rfl
  | _ => rfl

theorem nearest_eq (U : Uni) (l : List Node) (hl : ∀ n ∈ l, NamedTree n) : nearest U l = firstSeen U.lower l := by
  rw [nearest, firstSeen, List.head?_filter]
  induction l with
  | nil => rfl
  | cons a l ih =>
    rw [List.find?_cons, List.find?_cons, unseen_eq U a (hl a (by simp)), ih fun n hn => hl n (by simp [hn])]

theorem firstSeen_mem (lower : Str → Str) {l : List Node} {n : Node} (h : firstSeen lower l = some n) : n ∈ l :=
  (List.mem_filter.1 (List.mem_of_mem_head? h)).1

theorem atEdge_eq (U : Uni) (skip : List Str) (trim : Bool) (blocks : List Str) (l : List Node) (hl : ∀ n ∈ l, NamedTree n) :
    atEdge U blocks (nearest U l) = atBlock (wsRules U skip trim blocks) (firstSeen U.lower l) := by
  rw [nearest_eq U l hl]
  cases h : firstSeen U.lower l with
  | none => rfl
  | some n =>
    cases n with
    | elem name ns as kids tpl content =>
      have := (hl _ (firstSeen_mem _ h)).name.1
      simp only [atEdge, isBlockSib, atBlock, wsRules, this, ne_eq, not_false_eq_true, decide_true, Bool.true_and]
      rfl
    | _ => rfl

/-- The name of a parent, where `none` is the document or the content of a template. -/
def ParentIs (up : List Frame) (parent : Option Str) : Prop :=
  match parent with
  | some name => ProperName name ∧ (up.head?.map (·.name)) = some name
  | none => ((up.head?.map (·.name)).getD c%"#document").head? = some '#'

theorem trimEdges_eq (U : Uni) (skip : List Str) (trim : Bool) (blocks : List Str) (up : List Frame) (parent : Option Str) (hp : ParentIs up parent)
    (left right : List Node) (hl : ∀ n ∈ left, NamedTree n) (hr : ∀ n ∈ right, NamedTree n) (a : Bool) (t : Str) :
    (if trim then trimEdges U blocks ((up.head?.map (·.name)).getD c%"#document") left right (tidy a false t) else tidy a false t) =
      tidy (a || (trimsIn (wsRules U skip trim blocks) parent && atBlock (wsRules U skip trim blocks) (firstSeen U.lower left)))
        (trimsIn (wsRules U skip trim blocks) parent && atBlock (wsRules U skip trim blocks) (firstSeen U.lower right)) t := by
  cases trim with
  | false => simp [trimsIn, wsRules]
  | true =>
    simp only [if_true]
    have hw : trimsIn (wsRules U skip true blocks) parent =
        !((((up.head?.map (·.name)).getD c%"#document").head? = some '#') || ((up.head?.map (·.name)).getD c%"#document") = c%"!doctype" ||
          !blocks.contains (U.lower ((up.head?.map (·.name)).getD c%"#document"))) := by
      cases parent with
      | none => simp only [ParentIs] at hp; simp [trimsIn, hp]
      | some name =>
        obtain ⟨⟨h1, h2⟩, h3⟩ := hp
        rw [h3]
        simp [trimsIn, wsRules, h1, h2]
    rw [trimEdges, hw, atEdge_eq U skip true blocks left hl, atEdge_eq U skip true blocks right hr]
    generalize ((((up.head?.map (·.name)).getD c%"#document").head? = some '#') || ((up.head?.map (·.name)).getD c%"#document") = c%"!doctype" ||
          !blocks.contains (U.lower ((up.head?.map (·.name)).getD c%"#document"))) = b
    cases b with
    | true => simp
    | false =>
      simp only [Bool.false_eq_true, if_false, Bool.not_false, Bool.true_and]
      cases atBlock (wsRules U skip true blocks) (firstSeen U.lower left) <;> cases atBlock (wsRules U skip true blocks) (firstSeen U.lower right) <;>
        simp [tidy_ls, tidy_rs]

theorem collapsed_eq (U : Uni) (skip : List Str) (trim : Bool) (blocks : List Str) (up : List Frame) (parent : Option Str) (hp : ParentIs up parent)
    (left right : List Node) (hl : ∀ n ∈ left, NamedTree n) (hr : ∀ n ∈ right, NamedTree n) (t : Str) (ht : t ≠ []) :
    collapsedText U trim blocks ((up.head?.map (·.name)).getD c%"#document") left right t = tidyAt (wsRules U skip trim blocks) parent left right t := by
  rw [collapsedText, tidyAt]
  have : afterSpace U left (collapse t) = tidy (endsInSpace (firstSeen U.lower left)) false t := by
    rw [collapse_tidy t ht, afterSpace, nearest_eq U left hl]
    cases h : firstSeen U.lower left with
    | none => rfl
    | some n =>
      cases n with
      | text d =>
        simp only [endsInSpace]
        cases d.getLast? with
        | none => simp
        | some c =>
          simp only [ws_eq, Option.map_some, Option.getD_some]
          cases ws c with
          | false => simp
          | true =>
            by_cases hh : (tidy false false t).head? = some ' '
            · rw [hh]; simp [tidy_tail _ _ hh]
            · rw [if_neg (by simp [hh]), tidy_nohead _ _ hh]
      | _ => rfl
  rw [this]
  exact trimEdges_eq U skip trim blocks up parent hp left right hl hr _ t

mutual
theorem tidiedIn_named (W : WsRules) (off : Bool) : ∀ n, NamedTree n → NamedTree (tidiedIn W off n)
  | .elem name ns as kids tpl content, h => by
    have h1 := tidied_named W (off || W.skip.contains (W.lower name)) (some name) [] kids h.kids
    have h2 := tidied_named W (off || W.skip.contains (W.lower name)) none [] content
    rw [tidiedIn]
    refine NamedTree.mk h.name h1 ?_
    rintro rfl
    exact h2 h.content
  | .doc kids, h => by
    have h1 := tidied_named W off none [] kids h.doc
    rw [tidiedIn]
    simp only [NamedTree, Everywhere]
    exact ⟨fun _ _ _ _ _ _ e => by simp at e, (everywhereL_iff _ _).2 h1⟩
  | .text _, h => h
  | .comment _, h => h
  | .pi _, h => h
  | .doctype _ _ _, h => h
theorem tidied_named (W : WsRules) (off : Bool) (parent : Option Str) (before : List Node) : ∀ l, (∀ n ∈ l, NamedTree n) →
    ∀ n ∈ tidied W off parent before l, NamedTree n
  | [], _, n, hn => by simp [tidied] at hn
  | a :: rest, h, n, hn => by
    have h1 := tidiedIn_named W off a (h a (by simp))
    have h2 := fun before => tidied_named W off parent before rest (fun y hy => h y (by simp [hy]))
    cases a with
    | text t =>
      rw [tidied] at hn
      split at hn
      · rcases List.mem_cons.1 hn with e | hn
        · rw [e]; exact NamedTree.text _
        · exact h2 _ n hn
      · split at hn
        · exact h2 _ n hn
        · rcases List.mem_cons.1 hn with e | hn
          · rw [e]; exact NamedTree.text _
          · exact h2 _ n hn
    | _ =>
      simp only [tidied] at hn
      rcases List.mem_cons.1 hn with e | hn
      · rw [e]; exact h1
      · exact h2 _ n hn
end

theorem collapse_text (S : SanEnv) (C : SanCfg) (skip : List Str) (trim : Bool) (blocks : List Str) (own : Frame) (up : List Frame) (fg : Bool) (t : Str) :
    runOps S C (own :: up) fg 0 [opCollapse S.E.U skip trim blocks] (.text t) =
      if t.isEmpty || skipsIn S.E.U skip up then .cont (.text t)
      else if (collapsedText S.E.U trim blocks ((up.head?.map (·.name)).getD c%"#document") own.left own.right t).isEmpty then .done []
      else .cont (.text (collapsedText S.E.U trim blocks ((up.head?.map (·.name)).getD c%"#document") own.left own.right t)) := by
  simp only [runOps, applyOp, opCollapse]
  by_cases h1 : (t.isEmpty || skipsIn S.E.U skip up) = true
  · rw [if_pos h1, if_pos h1]
  · rw [if_neg h1, if_neg h1]
    by_cases h2 : (collapsedText S.E.U trim blocks ((up.head?.map (·.name)).getD c%"#document") own.left own.right t).isEmpty = true
    · rw [if_pos h2, if_pos h2]; rfl
    · rw [if_neg h2, if_neg h2]

theorem collapse_other (S : SanEnv) (C : SanCfg) (skip : List Str) (trim : Bool) (blocks : List Str) (path : List Frame) (fg : Bool) (n : Node)
    (h : ∀ t, n ≠ .text t) : runOps S C path fg 0 [opCollapse S.E.U skip trim blocks] n = .cont n := by
  cases n with
  | text t => exact absurd rfl (h t)
  | _ => simp only [runOps, applyOp, opCollapse]

theorem walk_collapse (S : SanEnv) (C : SanCfg) (skip : List Str) (trim : Bool) (blocks : List Str) :
    ∀ fuel up parent off fc left items, ParentIs up parent → skipsIn S.E.U skip up = off → (∀ y ∈ left, NamedTree y) → (∀ y ∈ items, NamedTree y) →
    Node.sizeL items < fuel → walkF S C [opCollapse S.E.U skip trim blocks] fuel up fc left (items.map fun k => (k, 0)) =
      left.reverse ++ tidied (wsRules S.E.U skip trim blocks) off parent left items := by
  intro fuel
  induction fuel with
  | zero => intro _ _ _ _ _ _ _ _ _ _ h; omega
  | succ fuel ih =>
    intro up parent off fc left items hp hoff hleft hok hf
    cases items with
    | nil => rw [List.map_nil, walkF.eq_def]; simp [tidied]
    | cons n rest =>
      rw [List.map_cons, walkF.eq_def]
      have hn : NamedTree n := hok n (by simp)
      have hrest : ∀ y ∈ rest, NamedTree y := fun y hy => hok y (by simp [hy])
      have hpos := size_pos n
      have hc : Node.sizeL (n :: rest) = n.size + Node.sizeL rest := rfl
      have hmap : (rest.map fun k => (k, 0)).map Prod.fst = rest := by rw [List.map_map]; exact List.map_id' rest
      have hcons : ∀ m, NamedTree m → ∀ y ∈ m :: left, NamedTree y := by
        intro m hm y hy
        rcases List.mem_cons.1 hy with rfl | hy
        · exact hm
        · exact hleft y hy
      simp only [List.drop_zero, hmap]
      cases n with
      | text t =>
        rw [collapse_text, hoff]
        rw [tidied]
        by_cases h1 : (off || decide (t = [])) = true
        · have : (t.isEmpty || off) = true := by
            simp only [Bool.or_eq_true, decide_eq_true_eq, List.isEmpty_iff] at h1 ⊢
            exact h1.symm
          rw [if_pos h1, if_pos this]
          simp only [descend]
          rw [ih up parent off fc _ rest hp hoff (hcons _ hn) hrest (by omega)]
          simp
        · have h1' : ¬ (t.isEmpty || off) = true := by
            simp only [Bool.or_eq_true, decide_eq_true_eq, List.isEmpty_iff] at h1 ⊢
            exact fun h => h1 h.symm
          have ht : t ≠ [] := by
            rintro rfl
            simp at h1
          rw [if_neg h1, if_neg h1']
          rw [collapsed_eq S.E.U skip trim blocks up parent hp left rest hleft hrest t ht]
          by_cases h2 : tidyAt (wsRules S.E.U skip trim blocks) parent left rest t = []
          · have h2' : (tidyAt (wsRules S.E.U skip trim blocks) parent left rest t).isEmpty = true := by simp [h2]
            rw [if_pos h2, if_pos h2']
            simp only [List.map_nil, List.nil_append]
            exact ih up parent off fc left rest hp hoff hleft hrest (by omega)
          · have h2' : ¬ (tidyAt (wsRules S.E.U skip trim blocks) parent left rest t).isEmpty = true := by simpa using h2
            rw [if_neg h2, if_neg h2']
            simp only [descend]
            rw [ih up parent off fc _ rest hp hoff (hcons _ (NamedTree.text _)) hrest (by omega)]
            simp
      | elem name ns as kids tpl content =>
        rw [collapse_other S C skip trim blocks _ _ _ (by simp)]
        simp only [tidied]
        simp only [Node.size] at hc
        have hsk : skipsIn S.E.U skip (frameOf left rest (.elem name ns as kids tpl content) :: up) = (off || skip.contains (S.E.U.lower name)) := by
          rw [← hoff, Bool.or_comm]
          simp [skipsIn, frameOf, hn.name.1]
        have hd : descend (fun frag ks => walkF S C [opCollapse S.E.U skip trim blocks] fuel
            (if frag then ⟨c%"#document-fragment", none, [], [], []⟩ :: frameOf left rest (.elem name ns as kids tpl content) :: up
              else frameOf left rest (.elem name ns as kids tpl content) :: up) (fc || isForeign S.E.U (.elem name ns as kids tpl content)) []
            (ks.map fun k => (k, 0))) (.elem name ns as kids tpl content) =
            tidiedIn (wsRules S.E.U skip trim blocks) off (.elem name ns as kids tpl content) := by
          rw [descend_elem _ _ _ _ _ _ hn.name, tidiedIn]
          have e1 := ih (frameOf left rest (.elem name ns as kids tpl content) :: up) (some name) _
            (fc || isForeign S.E.U (.elem name ns as kids tpl content)) [] kids ⟨hn.name, rfl⟩ hsk (by simp) hn.kids (by omega)
          simp only [List.reverse_nil, List.nil_append] at e1
          simp only [Bool.false_eq_true, if_false, if_true]
          rw [e1]
          cases tpl with
          | false => rfl
          | true =>
            have e2 := ih (⟨c%"#document-fragment", none, [], [], []⟩ :: frameOf left rest (.elem name ns as kids true content) :: up) none
              (off || skip.contains (S.E.U.lower name))
              (fc || isForeign S.E.U (.elem name ns as kids true content)) [] content rfl (by rw [← hsk]; simp [skipsIn]) (by simp) hn.content (by omega)
            simp only [List.reverse_nil, List.nil_append] at e2
            simp only [if_true]
            rw [e2]
            rfl
        rw [hd]
        have e3 := ih up parent off fc (tidiedIn (wsRules S.E.U skip trim blocks) off (.elem name ns as kids tpl content) :: left) rest hp hoff
          (hcons _ (tidiedIn_named _ _ _ hn)) hrest (by omega)
        rw [e3]
        simp
      | doc kids =>
        rw [collapse_other S C skip trim blocks _ _ _ (by simp)]
        simp only [tidied]
        simp only [Node.size] at hc
        have e1 := ih (frameOf left rest (.doc kids) :: up) none off
          (fc || isForeign S.E.U (.doc kids)) [] kids rfl (by rw [← hoff]; simp [skipsIn, frameOf, nodeName]) (by simp) hn.doc (by omega)
        simp only [List.reverse_nil, List.nil_append] at e1
        simp only [descend, Bool.false_eq_true, if_false]
        rw [e1]
        have e3 := ih up parent off fc (tidiedIn (wsRules S.E.U skip trim blocks) off (.doc kids) :: left) rest hp hoff
          (hcons _ (tidiedIn_named _ _ _ hn)) hrest (by omega)
        simp only [tidiedIn] at e3
        rw [e3]
        simp [tidiedIn]
      | _ =>
        rw [collapse_other S C skip trim blocks _ _ _ (by simp)]
        simp only [tidied, descend]
        have e3 := fun m hm => ih up parent off fc (m :: left) rest hp hoff (hcons m hm) hrest (by omega)
        rw [e3 _ hn]
        simp [tidiedIn]

/-- C91: `CollapseWhitespace` leaves single spaces between the words of every text outside the skipped elements. A space at the start or the end of a
text stays, except after a text that ends with white space and (with `trim_blocks`) at the edges of blocks; texts that are left with nothing are
removed; everything else stays as it is. -/
theorem C91_exact (R : TransEnv) (fuel : List Node → Nat) (hf : EnoughFuel fuel) (skip : List Str) (trim : Bool) (blocks : List Str) (kids : List Node)
    (hk : ∀ k ∈ kids, Everywhere WellNamed k) :
    transform R fuel [.one true (.collapseWs skip trim blocks)] kids =
      tidied { lower := R.S.E.U.lower, skip := skip, trim := trim, blocks := blocks } false none [] kids := by
  have h : transform R fuel [.one true (.collapseWs skip trim blocks)] kids =
      walkF R.S {} [opCollapse R.S.E.U skip trim blocks] (fuel kids) [] false [] (kids.map fun k => (k, 0)) := by
    simp only [transform, compileT, List.any_cons, TransSpec.isStage, List.any_nil, Bool.or_self, Bool.false_eq_true, if_false, flattenSpecs, flattenSpec,
      List.append_nil, lowerAll, List.foldl_cons, List.foldl_nil, if_true, lowerT, List.reverse_cons, List.reverse_nil, List.nil_append]
    simp only [runCT, runCT.finishWalk, runCT.finishPrune, List.isEmpty_nil, if_true, List.reverse_cons, List.reverse_nil, List.nil_append, runWalk,
      walkPolicy, opsOfCT, List.flatMap_cons, List.flatMap_nil, List.append_nil, wsSkips]
  rw [h, walk_collapse R.S {} skip trim blocks (fuel kids) [] none false false [] kids rfl rfl (by simp) hk (hf kids)]
  rfl

theorem tidy_nonws (l r : Bool) (t : Str) : (tidy l r t).filter (fun c => !ws c) = t.filter fun c => !ws c := by
  have hj : ∀ t : Str, (join [' '] (words t)).filter (fun c => !ws c) = t.filter fun c => !ws c := by
    have : ∀ n, ∀ t : Str, t.length ≤ n → (join [' '] (words t)).filter (fun c => !ws c) = t.filter fun c => !ws c := by
      intro n
      induction n with
      | zero =>
        intro t h
        have : t = [] := by simpa using h
        subst this; rfl
      | succ n ih =>
        intro t h
        cases t with
        | nil => rfl
        | cons c t =>
          simp only [List.length_cons] at h
          by_cases hc : ws c = true
          · rw [words_ws c t hc, ih t (by omega)]; simp [hc]
          · have hc' : ws c = false := by simpa using hc
            have hd := ih (t.dropWhile fun x => !ws x) (Nat.le_trans (List.dropWhile_sublist _).length_le (by omega))
            have hsplit : t.filter (fun c => !ws c) = (t.takeWhile fun x => !ws x) ++ (t.dropWhile fun x => !ws x).filter fun c => !ws c := by
              conv => lhs; rw [← List.takeWhile_append_dropWhile (p := fun x => !ws x) (l := t)]
              rw [List.filter_append]
              congr 1
              rw [List.filter_eq_self]
              exact fun x hx => mem_takeWhile_true x hx
            have htw : ((t.takeWhile fun x => !ws x)).filter (fun c => !ws c) = t.takeWhile fun x => !ws x := by
              rw [List.filter_eq_self]
              exact fun x hx => mem_takeWhile_true x hx
            rw [words_cons c t hc', join_cons, List.filter_append, List.filter_cons, List.filter_cons, htw]
            simp only [hc', Bool.not_false, if_true]
            rw [hsplit, List.cons_append]
            congr 2
            split
            · rename_i e
              rw [e] at hd
              rw [← hd]
              rfl
            · rw [List.filter_append, hd]; rfl
    exact fun t => this t.length t (Nat.le_refl _)
  simp only [tidy]
  by_cases hw : words t = []
  · rw [if_pos hw]
    have := hj t
    rw [hw] at this
    rw [← this]
    split <;> rfl
  · rw [if_neg hw, List.filter_append, List.filter_append, hj]
    split <;> split <;> simp [ws]

mutual
theorem tidiedIn_text (W : WsRules) (off : Bool) : ∀ n,
    (keptText (fun _ => false) (tidiedIn W off n)).filter (fun c => !ws c) = (keptText (fun _ => false) n).filter fun c => !ws c
  | .elem name ns as kids tpl content => by
    have h1 := tidied_text W (off || W.skip.contains (W.lower name)) (some name) [] kids
    have h2 := tidied_text W (off || W.skip.contains (W.lower name)) none [] content
    rw [tidiedIn, keptText, keptText]
    simp only [Bool.false_eq_true, if_false, List.filter_append, h1]
    cases tpl
    · rfl
    · simp only [if_true, h2]
  | .doc kids => by
    have h1 := tidied_text W off none [] kids
    rw [tidiedIn, keptText, keptText]
    exact h1
  | .text _ => rfl
  | .comment _ => rfl
  | .pi _ => rfl
  | .doctype _ _ _ => rfl
theorem tidied_text (W : WsRules) (off : Bool) (parent : Option Str) (before : List Node) : ∀ l,
    (keptTextL (fun _ => false) (tidied W off parent before l)).filter (fun c => !ws c) = (keptTextL (fun _ => false) l).filter fun c => !ws c
  | [] => by rw [tidied]
  | a :: rest => by
    have h1 := tidiedIn_text W off a
    have h2 := fun before => tidied_text W off parent before rest
    cases a with
    | text t =>
      rw [tidied]
      split
      · simp only [keptTextL, List.filter_append, h2]
      · split
        · rename_i e
          have := tidy_nonws (endsInSpace (firstSeen W.lower before) || (trimsIn W parent && atBlock W (firstSeen W.lower before)))
            (trimsIn W parent && atBlock W (firstSeen W.lower rest)) t
          rw [← tidyAt, e] at this
          simp only [keptTextL, keptText, List.filter_append, h2, ← this, List.filter_nil, List.nil_append]
        · simp only [keptTextL, keptText, List.filter_append, h2, tidyAt, tidy_nonws]
    | _ =>
      simp only [tidied, keptTextL, List.filter_append, h2, h1]
end

/-- C91: no text but white space is lost, and none is added. -/
theorem C91_text (R : TransEnv) (fuel : List Node → Nat) (hf : EnoughFuel fuel) (skip : List Str) (trim : Bool) (blocks : List Str) (kids : List Node)
    (hk : ∀ k ∈ kids, Everywhere WellNamed k) :
    (allText (.doc (transform R fuel [.one true (.collapseWs skip trim blocks)] kids))).filter (fun c => !ws c) =
      (allText (.doc kids)).filter fun c => !ws c := by
  rw [C91_exact R fuel hf skip trim blocks kids hk, allText, allText, keptText, keptText]
  exact tidied_text _ _ _ _ kids

/-- The node is a text. -/
def isTextNode : Node → Bool
  | .text _ => true
  | _ => false

mutual
theorem tidiedIn_rest (W : WsRules) (off : Bool) : ∀ n, siftIn isTextNode (tidiedIn W off n) = siftIn isTextNode n
  | .elem name ns as kids tpl content => by
    have h1 := tidied_rest W (off || W.skip.contains (W.lower name)) (some name) [] kids
    have h2 := tidied_rest W (off || W.skip.contains (W.lower name)) none [] content
    rw [tidiedIn, siftIn, siftIn, h1]
    cases tpl
    · rfl
    · simp only [if_true, h2]
  | .doc kids => by
    have h1 := tidied_rest W off none [] kids
    rw [tidiedIn, siftIn, siftIn, h1]
  | .text _ => rfl
  | .comment _ => rfl
  | .pi _ => rfl
  | .doctype _ _ _ => rfl
theorem tidied_rest (W : WsRules) (off : Bool) (parent : Option Str) (before : List Node) : ∀ l, sift isTextNode (tidied W off parent before l) = sift isTextNode l
  | [] => by rw [tidied]
  | a :: rest => by
    have h1 := tidiedIn_rest W off a
    have h2 := fun before => tidied_rest W off parent before rest
    cases a with
    | text t =>
      rw [tidied]
      split
      · simp only [sift, isTextNode, if_true, h2]
      · split
        · simp only [sift, isTextNode, if_true, h2]
        · simp only [sift, isTextNode, if_true, h2]
    | _ =>
      simp only [tidied, tidiedIn, sift, isTextNode, Bool.false_eq_true, if_false, h2] at h1 ⊢
      try rw [h1]
end

/-- C91: leaving the texts aside, the tree is the same as before. -/
theorem C91_only_texts (R : TransEnv) (fuel : List Node → Nat) (hf : EnoughFuel fuel) (skip : List Str) (trim : Bool) (blocks : List Str) (kids : List Node)
    (hk : ∀ k ∈ kids, Everywhere WellNamed k) :
    sift isTextNode (transform R fuel [.one true (.collapseWs skip trim blocks)] kids) = sift isTextNode kids := by
  rw [C91_exact R fuel hf skip trim blocks kids hk]
  exact tidied_rest _ _ _ _ kids

mutual
theorem tidiedIn_off (W : WsRules) : ∀ n, tidiedIn W true n = n
  | .elem name ns as kids tpl content => by
    have h1 := tidied_off W (some name) [] kids
    have h2 := tidied_off W none [] content
    rw [tidiedIn, Bool.true_or, h1]
    cases tpl
    · rfl
    · simp [h2]
  | .doc kids => by
    have h1 := tidied_off W none [] kids
    rw [tidiedIn, h1]
  | .text _ => rfl
  | .comment _ => rfl
  | .pi _ => rfl
  | .doctype _ _ _ => rfl
theorem tidied_off (W : WsRules) (parent : Option Str) (before : List Node) : ∀ l, tidied W true parent before l = l
  | [] => by rw [tidied]
  | a :: rest => by
    have h1 := tidiedIn_off W a
    have h2 := fun before => tidied_off W parent before rest
    cases a with
    | text t => rw [tidied]; simp [h2]
    | _ => simp only [tidied, h2, h1]
end

theorem NoAdjacentWs.words {t : Str} : ∀ l : List Str, (∀ w ∈ l, w ≠ [] ∧ ∀ c ∈ w, ws c = false) → ∀ p s : Str, (p = [] ∨ p = [' ']) → (s = [] ∨ s = [' ']) → l ≠ [] →
    t = p ++ join [' '] l ++ s → NoAdjacentWs t ∧ ∀ c ∈ t, ws c = true → c = ' ' := by
  intro l hl p s hp hs hne e
  have key : ∀ l : List Str, (∀ w ∈ l, w ≠ [] ∧ ∀ c ∈ w, ws c = false) → collapseLoop false (join [' '] l) = join [' '] l := by
    intro l
    induction l with
    | nil => intro _; rfl
    | cons w l ih =>
      intro h
      have hw := h w (by simp)
      rw [join_cons]
      rw [collapseLoop_word w _ hw.2 false hw.1]
      congr 1
      by_cases hl : l = []
      · rw [if_pos hl]; rfl
      · rw [if_neg hl]
        have hl' : ∀ w ∈ l, w ≠ [] ∧ ∀ c ∈ w, ws c = false := fun w hw => h w (by simp [hw])
        obtain ⟨c, r, e, hc⟩ := join_head l hl hl'
        have := ih hl'
        rw [e] at this ⊢
        simp only [collapseLoop, ws_eq, hc, Bool.false_eq_true, if_false] at this
        simp only [List.cons_append, List.nil_append, collapseLoop, show isHtmlSpace ' ' = true by decide, ws_eq, hc, Bool.false_eq_true, if_false, if_true]
        rw [this]
  have app : ∀ (b : Bool) (a x : Str), endWs a = false → a ≠ [] → collapseLoop b (a ++ x) = collapseLoop b a ++ collapseLoop false x := by
    intro b a x h hne
    induction a generalizing b with
    | nil => exact absurd rfl hne
    | cons c a ih =>
      by_cases ha : a = []
      · subst ha
        have hc : ws c = false := by simpa [endWs] using h
        simp [collapseLoop, ws_eq, hc]
      · have h' : endWs a = false := by
          have := endWs_app [c] ha
          rw [List.singleton_append] at this
          rw [← this]; exact h
        by_cases hc : ws c = true
        · simp only [List.cons_append, collapseLoop, ws_eq, hc, if_true, ih _ h' ha]
          cases b <;> simp
        · simp only [List.cons_append, collapseLoop, ws_eq, hc, Bool.false_eq_true, if_false, ih _ h' ha]
  have hfix : collapse t = t := by
    rw [collapse_eq, e]
    obtain ⟨c, r, e1, hc⟩ := join_head l hne hl
    obtain ⟨c', r', e2, hc'⟩ := join_last l hne hl
    have hj := key l hl
    have hend : endWs (p ++ join [' '] l) = false := by
      rw [e2, ← List.append_assoc, endWs_app _ (by simp)]
      simpa [endWs] using hc'
    rw [app false _ s hend (by rw [e1]; simp)]
    have hs' : collapseLoop false s = s := by rcases hs with rfl | rfl <;> rfl
    rw [hs']
    congr 1
    rcases hp with rfl | rfl
    · exact hj
    · rw [e1] at hj ⊢
      simp only [collapseLoop, ws_eq, hc, Bool.false_eq_true, if_false] at hj
      simp only [List.cons_append, List.nil_append, collapseLoop, show isHtmlSpace ' ' = true by decide, ws_eq, hc, Bool.false_eq_true, if_false, if_true]
      rw [hj]
  have := C52_single_spaces t
  rwa [hfix] at this

theorem tidy_single (l r : Bool) (t : Str) : NoAdjacentWs (tidy l r t) ∧ ∀ c ∈ tidy l r t, ws c = true → c = ' ' := by
  by_cases hw : words t = []
  · have : tidy l r t = [] ∨ tidy l r t = [' '] := by
      simp only [tidy, if_pos hw]
      split
      · exact .inl rfl
      · exact .inr rfl
    have h0 := C52_single_spaces []
    have h1 := C52_single_spaces c%" "
    rcases this with e | e
    · rw [e]; exact h0
    · rw [e]; exact h1
  · refine NoAdjacentWs.words (words t) (words_ends t.length t (Nat.le_refl _)) _ _ ?_ ?_ hw (by rw [tidy, if_neg hw])
    · split
      · exact .inr rfl
      · exact .inl rfl
    · split
      · exact .inr rfl
      · exact .inl rfl

/-- White space in the node, if it is a text, is single spaces. -/
def SingleSpaced (n : Node) : Prop := ∀ t, n = .text t → NoAdjacentWs t ∧ ∀ c ∈ t, ws c = true → c = ' '

mutual
theorem tidiedIn_single (W : WsRules) (h : W.skip = []) : ∀ n, isTextNode n = false → Everywhere SingleSpaced (tidiedIn W false n)
  | .elem name ns as kids tpl content, _ => by
    have h1 := tidied_single W h (some name) [] kids
    have h2 := tidied_single W h none [] content
    have e : (false || W.skip.contains (W.lower name)) = false := by rw [h]; rfl
    rw [tidiedIn, e]
    simp only [Everywhere]
    refine ⟨fun _ e => by simp at e, (everywhereL_iff _ _).2 h1, ?_⟩
    rintro rfl
    exact (everywhereL_iff _ _).2 h2
  | .doc kids, _ => by
    have h1 := tidied_single W h none [] kids
    rw [tidiedIn]
    simp only [Everywhere]
    exact ⟨fun _ e => by simp at e, (everywhereL_iff _ _).2 h1⟩
  | .text _, h => by simp [isTextNode] at h
  | .comment _, _ => by simp only [tidiedIn, Everywhere]; exact fun _ e => by simp at e
  | .pi _, _ => by simp only [tidiedIn, Everywhere]; exact fun _ e => by simp at e
  | .doctype _ _ _, _ => by simp only [tidiedIn, Everywhere]; exact fun _ e => by simp at e
theorem tidied_single (W : WsRules) (h : W.skip = []) (parent : Option Str) (before : List Node) : ∀ l, ∀ n ∈ tidied W false parent before l, Everywhere SingleSpaced n
  | [], n, hn => by simp [tidied] at hn
  | a :: rest, n, hn => by
    have h1 := tidiedIn_single W h a
    have h2 := fun before => tidied_single W h parent before rest
    cases a with
    | text t =>
      rw [tidied] at hn
      split at hn
      · rename_i e
        have e' : t = [] := by simpa using e
        rcases List.mem_cons.1 hn with e | hn
        · rw [e, e']
          simp only [Everywhere]
          intro t' he
          simp only [Node.text.injEq] at he
          rw [← he]
          exact C52_single_spaces []
        · exact h2 _ n hn
      · split at hn
        · exact h2 _ n hn
        · rcases List.mem_cons.1 hn with e | hn
          · rw [e]
            simp only [Everywhere]
            intro t' he
            simp only [Node.text.injEq] at he
            rw [← he]
            exact tidy_single _ _ _
          · exact h2 _ n hn
    | _ =>
      simp only [tidied] at hn
      rcases List.mem_cons.1 hn with e | hn
      · rw [e]; exact h1 rfl
      · exact h2 _ n hn
end

/-- C91: without skipped elements, all white space that is left in texts, at any depth, is single spaces. -/
theorem C91_single_spaces (R : TransEnv) (fuel : List Node → Nat) (hf : EnoughFuel fuel) (trim : Bool) (blocks : List Str) (kids : List Node)
    (hk : ∀ k ∈ kids, Everywhere WellNamed k) :
    ∀ k ∈ transform R fuel [.one true (.collapseWs [] trim blocks)] kids, Everywhere SingleSpaced k := by
  rw [C91_exact R fuel hf [] trim blocks kids hk]
  exact tidied_single _ rfl _ _ kids

theorem tidied_mem (W : WsRules) (off : Bool) (parent : Option Str) (n : Node) (hn : isTextNode n = false) : ∀ (l before : List Node), n ∈ l →
    tidiedIn W off n ∈ tidied W off parent before l := by
  intro l
  induction l with
  | nil => intro _ h; simp at h
  | cons a l ih =>
    intro before h
    cases a with
    | text t =>
      have hl : n ∈ l := by
        rcases List.mem_cons.1 h with e | h
        · rw [e] at hn; simp [isTextNode] at hn
        · exact h
      rw [tidied]
      split
      · exact List.mem_cons_of_mem _ (ih _ hl)
      · split
        · exact ih _ hl
        · exact List.mem_cons_of_mem _ (ih _ hl)
    | _ =>
      simp only [tidied]
      rcases List.mem_cons.1 h with e | h
      · rw [e]; exact List.mem_cons_self
      · exact List.mem_cons_of_mem _ (ih _ h)

theorem tidied_reach (W : WsRules) (m : Node) (hm : isTextNode m = false) (hfix : ∀ off, tidiedIn W off m = m) (l : List Node) (h : Reach m l) :
    ∀ off parent before, Reach m (tidied W off parent before l) := by
  induction h with
  | here h =>
    intro off parent before
    have := tidied_mem W off parent m hm _ before h
    rw [hfix] at this
    exact .here this
  | kid h hn _ ih =>
    intro off parent before
    have := tidied_mem W off parent _ rfl _ before h
    rw [tidiedIn] at this
    exact .kid this hn (ih _ _ _)
  | content h hn _ ih =>
    intro off parent before
    have := tidied_mem W off parent _ rfl _ before h
    rw [tidiedIn] at this
    exact .content this hn (by simpa using ih _ _ _)
  | doc h _ ih =>
    intro off parent before
    have := tidied_mem W off parent _ rfl _ before h
    rw [tidiedIn] at this
    exact .doc this (ih _ _ _)

/-- C91: a skipped element, at any depth, is in the result as it was, with everything in it. -/
theorem C91_skipped (R : TransEnv) (fuel : List Node → Nat) (hf : EnoughFuel fuel) (skip : List Str) (trim : Bool) (blocks : List Str) (kids : List Node)
    (hk : ∀ k ∈ kids, Everywhere WellNamed k) (name : Str) (ns : Option Str) (as : Attrs) (ks : List Node) (tpl : Bool) (content : List Node)
    (hm : Reach (.elem name ns as ks tpl content) kids) (h : R.S.E.U.lower name ∈ skip) :
    Reach (.elem name ns as ks tpl content) (transform R fuel [.one true (.collapseWs skip trim blocks)] kids) := by
  rw [C91_exact R fuel hf skip trim blocks kids hk]
  refine tidied_reach _ _ rfl (fun off => ?_) kids hm _ _ _
  have e : skip.contains (R.S.E.U.lower name) = true := by simpa using h
  rw [tidiedIn]
  simp only [e, Bool.or_true, tidied_off]
  cases tpl <;> rfl

/-- `<div>  a <pre> x  y </pre> <b> c</b>\n d <br> </div>`, for the example. -/
def wsTree : List Node :=
  [.elem c%"div" (some c%"html") [] [.text c%"  a ", .elem c%"pre" (some c%"html") [] [.text c%" x  y "] false [], .text c%" ",
    .elem c%"b" (some c%"html") [] [.text c%" c"] false [], .text c%"\n d ", .elem c%"br" (some c%"html") [] [] false [], .text c%" "] false []]

example : transform TransEnv.sample fuelFor [.one true (.collapseWs [c%"pre"] true [c%"div", c%"pre"])] wsTree =
    [.elem c%"div" (some c%"html") [] [.text c%"a", .elem c%"pre" (some c%"html") [] [.text c%" x  y "] false [],
      .elem c%"b" (some c%"html") [] [.text c%" c"] false [], .text c%" d", .elem c%"br" (some c%"html") [] [] false []] false []] := by
  rw [C91_exact TransEnv.sample fuelFor fuelFor_enough _ _ _ wsTree (namedBL_iff _ (by decide))]
  with_unfolding_all rfl

/-- `CollapseWhitespace` is not idempotent (F56): in `<div>a <!----> </div>` the space after the comment, which is at the end of the block, goes because it
follows another space, and then the first space is left at the end of the block, where a second run removes it. -/
theorem C91_not_idempotent : ¬ ∀ (R : TransEnv) (fuel : List Node → Nat) (_ : EnoughFuel fuel) (skip : List Str) (trim : Bool) (blocks : List Str)
    (kids : List Node) (_ : ∀ k ∈ kids, Everywhere WellNamed k),
    transform R fuel [.one true (.collapseWs skip trim blocks)] (transform R fuel [.one true (.collapseWs skip trim blocks)] kids) =
      transform R fuel [.one true (.collapseWs skip trim blocks)] kids := by
  intro h
  have := h TransEnv.sample fuelFor fuelFor_enough [] true [c%"div"]
    [.elem c%"div" (some c%"html") [] [.text c%"a ", .comment c%"c", .text c%" "] false []] (namedBL_iff _ (by decide))
  rw [C91_exact TransEnv.sample fuelFor fuelFor_enough _ _ _ [.elem c%"div" (some c%"html") [] [.text c%"a ", .comment c%"c", .text c%" "] false []]
    (namedBL_iff _ (by decide))] at this
  rw [C91_exact TransEnv.sample fuelFor fuelFor_enough _ _ _ _ (namedBL_iff _ (by decide +kernel))] at this
  have := congrArg (fun l => allText (.doc l)) this
  revert this
  decide +kernel

end JH
