import Verif.Lemmas.SelText
import Verif.Props.TextOps
/-! Pseudo-classes and simple selectors mean what they should. -/
namespace JH
open Spec

variable {U : Uni} {h : Heap} {S : Compound → Prop} {D : Nat} {sat : Compound → Nat → Prop} {E : SErr → Prop}

/-! ### First and last of a list -/

theorem head_filter {l : List Nat} (hl : l.Nodup) (P : Nat → Prop) [DecidablePred P] (n : Nat) :
    (l.filter fun x => decide (P x)).head? = some n ↔ n ∈ l ∧ P n ∧ ∀ x ∈ sibsBefore l n, ¬ P x := by
  constructor
  · intro e
    have hm : n ∈ l.filter fun x => decide (P x) := List.mem_of_head? e
    have hm' := List.mem_filter.1 hm
    refine ⟨hm'.1, by simpa using hm'.2, ?_⟩
    obtain ⟨b, hb, hnb⟩ := split_mem hm'.1
    intro x hx hP
    rw [hb, List.filter_append] at e
    cases hf : (sibsBefore l n).filter fun x => decide (P x) with
    | nil =>
      have : x ∈ (sibsBefore l n).filter fun x => decide (P x) := List.mem_filter.2 ⟨hx, by simpa using hP⟩
      rw [hf] at this
      cases this
    | cons y ys =>
      rw [hf, List.cons_append, List.head?_cons] at e
      cases e
      have : n ∈ (sibsBefore l n).filter fun x => decide (P x) := by rw [hf]; simp
      exact hnb (List.mem_filter.1 this).1
  · rintro ⟨hm, hP, hb⟩
    obtain ⟨b, hb', -⟩ := split_mem hm
    rw [hb', List.filter_append]
    have : (sibsBefore l n).filter (fun x => decide (P x)) = [] := by
      rw [List.filter_eq_nil_iff]; intro x hx; simpa using hb x hx
    rw [this, List.nil_append, List.filter_cons_of_pos (by simpa using hP), List.head?_cons]

theorem mem_before {a b : List Nat} {n x : Nat} (hl : (a ++ n :: b).Nodup) (hx : x ∈ a ++ n :: b) : n ∈ sibsBefore (a ++ n :: b) x ↔ x ∈ b := by
  rw [List.nodup_append] at hl
  have hna : n ∉ a := fun hm => hl.2.2 n hm n (by simp) rfl
  have hnb : n ∉ b := (List.nodup_cons.1 hl.2.1).1
  rcases List.mem_append.1 hx with hx | hx
  · obtain ⟨c, hc, hxc⟩ := split_mem hx
    constructor
    · intro hm
      rw [show a ++ n :: b = sibsBefore a x ++ x :: (c ++ n :: b) by rw [← List.cons_append, ← List.append_assoc, ← hc], sibsBefore_split hxc] at hm
      exact absurd (before_mem hm) hna
    · intro hm
      exact absurd rfl (hl.2.2 x hx x (by simp [hm]))
  · rcases List.mem_cons.1 hx with rfl | hxb
    · rw [sibsBefore_split hna]
      exact ⟨fun hm => absurd hm hna, fun hm => absurd hm hnb⟩
    · refine ⟨fun _ => hxb, fun _ => ?_⟩
      obtain ⟨c, hc, hxc⟩ := split_mem hxb
      have : x ∉ a ++ n :: sibsBefore b x := by
        intro hm
        rcases List.mem_append.1 hm with hm | hm
        · exact hl.2.2 x hm x (by simp [hxb]) rfl
        · rcases List.mem_cons.1 hm with rfl | hm
          · exact hnb hxb
          · exact hxc hm
      rw [show a ++ n :: b = (a ++ n :: sibsBefore b x) ++ x :: c by rw [List.append_assoc, List.cons_append, ← hc], sibsBefore_split this]
      simp

theorem last_filter {l : List Nat} (hl : l.Nodup) (P : Nat → Prop) [DecidablePred P] (n : Nat) :
    (l.filter fun x => decide (P x)).getLast? = some n ↔ n ∈ l ∧ P n ∧ ∀ x ∈ l, n ∈ sibsBefore l x → ¬ P x := by
  constructor
  · intro e
    have hm : n ∈ l.filter fun x => decide (P x) := List.mem_of_getLast? e
    have hm' := List.mem_filter.1 hm
    refine ⟨hm'.1, by simpa using hm'.2, ?_⟩
    obtain ⟨b, hb, hnb⟩ := split_mem hm'.1
    generalize sibsBefore l n = a at hb hnb
    subst hb
    intro x hx hnx hP
    rw [mem_before hl hx] at hnx
    rw [List.filter_append, List.filter_cons_of_pos (by simpa using hm'.2)] at e
    have hxf : x ∈ b.filter fun x => decide (P x) := List.mem_filter.2 ⟨hnx, by simpa using hP⟩
    rw [List.getLast?_append, List.getLast?_cons] at e
    cases hf : b.filter fun x => decide (P x) with
    | nil => rw [hf] at hxf; cases hxf
    | cons y ys =>
      rw [hf] at e
      have hlast : (y :: ys).getLast? = some n := by
        rw [List.getLast?_eq_some_getLast (by simp)] at e ⊢
        simpa using e
      have : n ∈ b.filter fun x => decide (P x) := by rw [hf]; exact List.mem_of_getLast? hlast
      rw [List.nodup_append] at hl
      exact (List.nodup_cons.1 hl.2.1).1 (List.mem_filter.1 this).1
  · rintro ⟨hm, hP, hb⟩
    obtain ⟨b, hb', hna⟩ := split_mem hm
    generalize sibsBefore l n = a at hb' hna
    subst hb'
    have : b.filter (fun x => decide (P x)) = [] := by
      rw [List.filter_eq_nil_iff]; intro x hx
      simpa using hb x (by simp [hx]) ((mem_before hl (by simp [hx])).2 hx)
    rw [List.filter_append, List.filter_cons_of_pos (by simpa using hP), this]
    simp

/-! ### Pseudo-classes -/

theorem facts (H : SelHeap h) (p : Nat) : PDFacts U h (h.kids p) (pdOf U h (h.kids p)) := pd_facts U h _ (forest_nodup H.forest p)

theorem elementKids_ok (H : SelHeap h) (he : Budget E) (p : Nat) :
    Ok (SelInv U h S D sat) (elementKids U h p) (fun l => l = (h.kids p).filter fun x => decide (Elem h x)) E := by
  unfold elementKids
  by_cases h0 : h.kids p = []
  · rw [if_pos h0]; exact Ok.pure (by rw [h0]; rfl)
  · rw [if_neg h0]
    refine Ok.bind (parentData_ok he p) ?_
    rintro d rfl
    exact Ok.pure (facts H p).kids

theorem firstChild_iff (H : SelHeap h) (P : Nat → Prop) [DecidablePred P] {n p : Nat} (hp : (h.obj n).parent = some p) :
    ((h.kids p).filter fun x => decide (P x)).head? = some n ↔ P n ∧ IsChild h n ∧ ∀ x, Earlier h x n → ¬ P x := by
  rw [head_filter (forest_nodup H.forest p), isChild_iff H.forest hp]
  constructor
  · rintro ⟨h1, h2, h3⟩
    exact ⟨h2, h1, fun x hx => h3 x ((earlier_iff H.forest hp).1 hx).2⟩
  · rintro ⟨h1, h2, h3⟩
    exact ⟨h2, h1, fun x hx => h3 x ((earlier_iff H.forest hp).2 ⟨h2, hx⟩)⟩

theorem lastChild_iff (H : SelHeap h) (P : Nat → Prop) [DecidablePred P] {n p : Nat} (hp : (h.obj n).parent = some p) :
    ((h.kids p).filter fun x => decide (P x)).getLast? = some n ↔ P n ∧ IsChild h n ∧ ∀ x, Earlier h n x → ¬ P x := by
  rw [last_filter (forest_nodup H.forest p), isChild_iff H.forest hp]
  constructor
  · rintro ⟨h1, h2, h3⟩
    refine ⟨h2, h1, fun x hx => ?_⟩
    obtain ⟨q, hq, hm, hb⟩ := earlier_mem H.forest hx
    have := forest_par H.forest (before_mem hb)
    rw [hp] at this
    cases this
    exact h3 x hm hb
  · rintro ⟨h1, h2, h3⟩
    exact ⟨h2, h1, fun x hx hb => h3 x ((earlier_iff H.forest (forest_par H.forest hx)).2 ⟨hx, hb⟩)⟩

theorem isFirstChild_ok (H : SelHeap h) (he : Budget E) (n : Nat) : Ok (SelInv U h S D sat) (isFirstChild U h n) (fun b => b = true ↔ FirstChild h n) E := by
  unfold isFirstChild
  cases hp : (h.obj n).parent with
  | none => exact Ok.pure ⟨nofun, fun hf => absurd hf.2.1 (not_isChild H.forest hp)⟩
  | some p =>
    refine Ok.bind (elementKids_ok H he p) ?_
    rintro l rfl
    refine Ok.pure ?_
    rw [decide_eq_true_iff]
    exact firstChild_iff H (Elem h) hp

theorem isLastChild_ok (H : SelHeap h) (he : Budget E) (n : Nat) : Ok (SelInv U h S D sat) (isLastChild U h n) (fun b => b = true ↔ LastChild h n) E := by
  unfold isLastChild
  cases hp : (h.obj n).parent with
  | none => exact Ok.pure ⟨nofun, fun hf => absurd hf.2.1 (not_isChild H.forest hp)⟩
  | some p =>
    refine Ok.bind (elementKids_ok H he p) ?_
    rintro l rfl
    refine Ok.pure ?_
    rw [decide_eq_true_iff]
    exact lastChild_iff H (Elem h) hp

theorem isFirstOfType_ok (H : SelHeap h) (he : Budget E) (n : Nat) :
    Ok (SelInv U h S D sat) (isFirstOfType U h n) (fun b => b = true ↔ FirstOfType U h n) E := by
  unfold isFirstOfType
  cases hp : (h.obj n).parent with
  | none => exact Ok.pure ⟨nofun, fun hf => absurd hf.2.1 (not_isChild H.forest hp)⟩
  | some p =>
    refine Ok.bind (parentData_ok he p) ?_
    rintro d rfl
    refine Ok.pure ?_
    rw [decide_eq_true_iff, (facts H p).firstBy]
    refine (firstChild_iff H (ofType U h (U.lower (h.obj n).name)) hp).trans ?_
    exact ⟨fun ⟨a, b, c⟩ => ⟨a.1, b, c⟩, fun ⟨a, b, c⟩ => ⟨⟨a, rfl⟩, b, c⟩⟩

theorem isLastOfType_ok (H : SelHeap h) (he : Budget E) (n : Nat) :
    Ok (SelInv U h S D sat) (isLastOfType U h n) (fun b => b = true ↔ LastOfType U h n) E := by
  unfold isLastOfType
  cases hp : (h.obj n).parent with
  | none => exact Ok.pure ⟨nofun, fun hf => absurd hf.2.1 (not_isChild H.forest hp)⟩
  | some p =>
    refine Ok.bind (parentData_ok he p) ?_
    rintro d rfl
    refine Ok.pure ?_
    rw [decide_eq_true_iff, (facts H p).lastBy]
    refine (lastChild_iff H (ofType U h (U.lower (h.obj n).name)) hp).trans ?_
    exact ⟨fun ⟨a, b, c⟩ => ⟨a.1, b, c⟩, fun ⟨a, b, c⟩ => ⟨⟨a, rfl⟩, b, c⟩⟩

theorem dropWhile_nil_iff (p : Char → Bool) (s : Str) : s.dropWhile p = [] ↔ ∀ c ∈ s, p c = true := by
  induction s with
  | nil => simp
  | cons x s ih =>
    by_cases hx : p x = true
    · rw [List.dropWhile_cons_of_pos hx, ih]; simp [hx]
    · rw [List.dropWhile_cons_of_neg hx]; simp [hx]

theorem strip_nil_iff (p : Char → Bool) (s : Str) : stripP p s = [] ↔ ∀ c ∈ s, p c = true := by
  unfold stripP rstripP lstripP
  rw [List.reverse_eq_nil_iff, dropWhile_nil_iff]
  constructor
  · intro ha c hc
    by_cases hd : c ∈ s.dropWhile p
    · exact ha c (by simpa using hd)
    · have : c ∈ s.takeWhile p := by
        rw [← List.takeWhile_append_dropWhile (p := p) (l := s)] at hc
        exact (List.mem_append.1 hc).resolve_right hd
      exact List.all_eq_true.1 (List.all_takeWhile (p := p)) c this
  · intro ha c hc
    exact ha c ((List.dropWhile_sublist p).subset (by simpa using hc))

theorem isEmptyNode_ok (H : SelHeap h) (he : Budget E) (n : Nat) : Ok (SelInv U h S D sat) (isEmptyNode U h n) (fun b => b = true ↔ Hollow U h n) E := by
  unfold isEmptyNode
  by_cases h0 : h.kids n = []
  · rw [if_pos h0]
    refine Ok.pure ⟨fun _ => ?_, fun _ => rfl⟩
    intro l x hl hx
    rw [kids_some hl] at h0
    rw [h0] at hx
    cases hx
  · rw [if_neg h0]
    refine Ok.bind (parentData_ok he n) ?_
    rintro d rfl
    refine Ok.pure ?_
    rw [(facts H n).isEmpty]
    constructor
    · intro ha l x hl hx
      have := ha x (by rw [kids_some hl]; exact hx)
      refine ⟨this.1, fun ht s hs => ?_⟩
      have h2 := this.2 ht
      rw [hs] at h2
      exact (strip_nil_iff _ _).1 h2
    · intro ha x hx
      obtain ⟨l, hl, hx⟩ := some_kids hx
      have := ha l x hl hx
      refine ⟨this.1, fun ht => ?_⟩
      cases hd : (h.obj x).data with
      | none => rfl
      | some s => exact (strip_nil_iff _ _).2 (this.2 ht s hd)

theorem matchNth_ok (H : SelHeap h) (he : Budget E) (n : Nat) (arg : Option Str) (ix : ParentData → Nat → Option Nat) (P : Nat → Prop) [DecidablePred P]
    (hix : ∀ p, ix (pdOf U h (h.kids p)).d n = if n ∈ h.kids p ∧ Elem h n then some (((sibsBefore (h.kids p) n).filter fun x => decide (P x)).length + 1) else none) :
    Ok (SelInv U h S D sat) (matchNth U h n arg ix) (fun b => b = true ↔ Elem h n ∧ NthOf U h P n arg) E := by
  unfold matchNth
  have child : ∀ i, Position h P n i → IsChild h n := fun i ⟨p, a, b, hl, _⟩ => ⟨p, _, hl, by simp⟩
  cases hp : (h.obj n).parent with
  | none => exact Ok.pure ⟨nofun, fun ⟨_, _, _, i, _, hi, _⟩ => absurd (child i hi) (not_isChild H.forest hp)⟩
  | some p =>
    refine Ok.bind (nthExpr_ok arg) ?_
    rintro r rfl
    cases hn : parseNth U arg with
    | none => exact Ok.pure ⟨nofun, fun ⟨_, a, b, i, he, _⟩ => by rw [hn] at he; cases he⟩
    | some ab =>
      obtain ⟨a, b⟩ := ab
      refine Ok.bind (parentData_ok he p) ?_
      rintro d rfl
      rw [hix p]
      by_cases hm : n ∈ h.kids p ∧ Elem h n
      · rw [if_pos hm]
        refine Ok.pure ?_
        rw [C44_nth]
        constructor
        · intro hk
          exact ⟨hm.2, a, b, _, hn, (position_iff H.forest hp).2 ⟨hm.1, rfl⟩, hk⟩
        · rintro ⟨_, a', b', i, he', hi, hk⟩
          rw [hn] at he'
          cases he'
          have := ((position_iff H.forest hp).1 hi).2
          rw [← this]
          exact hk
      · rw [if_neg hm]
        refine Ok.pure ⟨nofun, ?_⟩
        rintro ⟨hE, a', b', i, he', hi, hk⟩
        exact absurd ⟨((position_iff H.forest hp).1 hi).1, hE⟩ hm

/-- A pseudo-class that exists, with an argument if it needs one. -/
def KnownPseudo (name : Str) (arg : Option Str) : Prop :=
  name ∈ [c%"first-child", c%"last-child", c%"nth-child", c%"not", c%"only-child", c%"empty", c%"root", c%"contains", c%"comment", c%"first-of-type",
    c%"last-of-type", c%"nth-of-type", c%"only-of-type"] ∧ (name = c%"contains" → arg ≠ none)

/-- For a known name only one line of `PseudoHolds` remains. -/
theorem ok_and {I : SCtx → Prop} {x y : SM Bool} {P Q : Prop} (hx : Ok I x (fun b => b = true ↔ P) E) (hy : Ok I y (fun b => b = true ↔ Q) E) :
    Ok I (do if ← x then y else pure false) (fun b => b = true ↔ P ∧ Q) E := by
  refine Ok.bind hx ?_
  intro b hb
  cases b with
  | false => exact Ok.pure ⟨nofun, fun hpq => absurd (hb.2 hpq.1) nofun⟩
  | true => exact hy.mono fun c hc => hc.trans ⟨fun q => ⟨hb.1 rfl, q⟩, fun hpq => hpq.2⟩

theorem Ok.iff {I : SCtx → Prop} {x : SM Bool} {P Q : Prop} (hx : Ok I x (fun b => b = true ↔ P) E) (hpq : P ↔ Q) : Ok I x (fun b => b = true ↔ Q) E :=
  hx.mono fun _ hb => hb.trans hpq

theorem infix_iff {n s : Str} : isIn n s = true ↔ n <:+: s := by
  rw [isIn_iff]
  exact ⟨fun ⟨a, b, e⟩ => ⟨a, b, e.symm⟩, fun ⟨a, b, e⟩ => ⟨a, b, e.symm⟩⟩

theorem matchPseudo_ok (H : SelHeap h) (he : Budget E) (inner : Sel → Nat → SM Bool) (n : Nat) (name : Str) (arg : Option Str) (sel : Sel) (P : Prop)
    (hk : KnownPseudo name arg ∨ (E .unsupported ∧ E .noArg))
    (hin : name = c%"not" → arg.getD [] ≠ [] → Ok (SelInv U h S D sat) (inner sel n) (fun b => b = true ↔ P) E) :
    Ok (SelInv U h S D sat) (matchPseudo U h inner n name arg sel) (fun b => b = true ↔ PseudoHolds U h n name arg (unquoteArg U (arg.getD [])) P) E := by
  unfold matchPseudo
  by_cases c1 : name = c%"first-child"
  · rw [if_pos c1]; exact (isFirstChild_ok H he n).iff (by subst c1; simp [PseudoHolds])
  rw [if_neg c1]
  by_cases c2 : name = c%"last-child"
  · rw [if_pos c2]; exact (isLastChild_ok H he n).iff (by subst c2; simp [PseudoHolds])
  rw [if_neg c2]
  by_cases c3 : name = c%"nth-child"
  · rw [if_pos c3]
    exact (matchNth_ok H he n arg ParentData.index (Elem h) fun p => (facts H p).index n).iff (by subst c3; simp [PseudoHolds])
  rw [if_neg c3]
  by_cases c4 : name = c%"not"
  · rw [if_pos c4]
    by_cases ha : arg.getD [] = []
    · rw [if_pos ha]; exact Ok.pure ⟨fun _ => by subst c4; simp [PseudoHolds, ha], fun _ => rfl⟩
    · rw [if_neg ha]
      refine Ok.bind (hin c4 ha) ?_
      intro b hb
      refine Ok.pure ?_
      subst c4
      cases b with
      | false => exact ⟨fun _ => by simp [PseudoHolds, ← hb], fun _ => rfl⟩
      | true =>
        refine ⟨nofun, fun hp => ?_⟩
        simp [PseudoHolds, ← hb, ha] at hp
  rw [if_neg c4]
  by_cases c5 : name = c%"only-child"
  · rw [if_pos c5]
    exact (ok_and (isFirstChild_ok H he n) (isLastChild_ok H he n)).iff (by subst c5; simp [PseudoHolds])
  rw [if_neg c5]
  by_cases c6 : name = c%"empty"
  · rw [if_pos c6]; exact (isEmptyNode_ok H he n).iff (by subst c6; simp [PseudoHolds])
  rw [if_neg c6]
  by_cases c7 : name = c%"root"
  · rw [if_pos c7]
    subst c7
    cases hp : (h.obj n).parent with
    | none => exact Ok.pure ⟨nofun, fun hr => by simp [PseudoHolds, IsRoot, hp] at hr⟩
    | some p => exact Ok.pure (by simp [PseudoHolds, IsRoot, hp])
  rw [if_neg c7]
  by_cases c8 : name = c%"contains"
  · rw [if_pos c8]
    cases arg with
    | none =>
      rcases hk with hk | hk
      · exact absurd rfl (hk.2 c8)
      · exact Ok.fail hk.2
    | some a =>
      refine Ok.bytes selInv_bytes he.bytes ?_
      by_cases h0 : unquoteArg U a = []
      · rw [if_pos h0]; exact Ok.pure ⟨fun _ => by subst c8; simp [PseudoHolds, Contains, h0], fun _ => rfl⟩
      · rw [if_neg h0]
        refine Ok.bind (textContent_ok H he n) ?_
        intro s hs
        refine Ok.pure ?_
        rw [infix_iff]
        subst c8
        constructor
        · intro hi
          obtain ⟨t, ht, rfl⟩ := hs
          simp only [PseudoHolds, Contains]
          simp
          exact .inr ⟨t, ht, hi⟩
        · intro hp
          simp [PseudoHolds, Contains, h0] at hp
          obtain ⟨t, ht, hi⟩ := hp
          rw [textIs_unique hs ht]
          exact hi
  rw [if_neg c8]
  by_cases c9 : name = c%"comment"
  · rw [if_pos c9]; exact Ok.pure (by subst c9; simp [PseudoHolds])
  rw [if_neg c9]
  by_cases c10 : name = c%"first-of-type"
  · rw [if_pos c10]; exact (isFirstOfType_ok H he n).iff (by subst c10; simp [PseudoHolds])
  rw [if_neg c10]
  by_cases c11 : name = c%"last-of-type"
  · rw [if_pos c11]; exact (isLastOfType_ok H he n).iff (by subst c11; simp [PseudoHolds])
  rw [if_neg c11]
  by_cases c12 : name = c%"nth-of-type"
  · rw [if_pos c12]
    exact (matchNth_ok H he n arg ParentData.typeIndex (SameType U h n) fun p => (facts H p).typeIndex n).iff (by subst c12; simp [PseudoHolds])
  rw [if_neg c12]
  by_cases c13 : name = c%"only-of-type"
  · rw [if_pos c13]
    exact (ok_and (isFirstOfType_ok H he n) (isLastOfType_ok H he n)).iff (by subst c13; simp [PseudoHolds])
  rw [if_neg c13]
  rcases hk with hk | hk
  · have := hk.1
    simp only [List.mem_cons, List.not_mem_nil, or_false] at this
    rcases this with h | h | h | h | h | h | h | h | h | h | h | h | h <;> exact absurd h (by assumption)
  · exact Ok.fail hk.1

/-! ### Attributes -/

theorem matchOp_ok (he : Budget E) (n : Nat) (name v op w : Str) (hv : attrVal U h n name = some v) :
    Ok (SelInv U h S D sat) (matchOp U h n name v op w) (fun b => b = true ↔ OpHolds U op v w) E := by
  unfold matchOp
  have tk : ∀ (k : Nat) (b : Bool) (P : Prop), (b = true ↔ P) → Ok (SelInv U h S D sat) (do tickBytes k; pure b) (fun b => b = true ↔ P) E := fun k b P hb =>
    Ok.bytes selInv_bytes he.bytes (Ok.pure hb)
  by_cases c1 : op = c%"="
  · rw [if_pos c1]; refine tk _ _ _ ?_; subst c1; simp [OpHolds]
  rw [if_neg c1]
  by_cases c2 : op = c%"~="
  · rw [if_pos c2]
    refine Ok.bind (attrTokens_ok he n name v hv) ?_
    rintro ts rfl
    refine Ok.pure ?_
    rw [List.contains_iff_mem, mem_words]
    subst c2; simp [OpHolds]
  rw [if_neg c2]
  by_cases c3 : op = c%"|="
  · rw [if_pos c3]; refine tk _ _ _ ?_; subst c3
    rw [Bool.or_eq_true, decide_eq_true_iff, startsWith_iff]
    simp only [OpHolds, List.IsPrefix]
    simp
    exact or_congr Iff.rfl ⟨fun ⟨t, e⟩ => ⟨t, e.symm⟩, fun ⟨t, e⟩ => ⟨t, e.symm⟩⟩
  rw [if_neg c3]
  by_cases c4 : op = c%"^="
  · rw [if_pos c4]; refine tk _ _ _ ?_; subst c4
    rw [Bool.and_eq_true, startsWith_iff]
    simp only [OpHolds, List.IsPrefix]
    simp
    exact fun _ => ⟨fun ⟨t, e⟩ => ⟨t, e.symm⟩, fun ⟨t, e⟩ => ⟨t, e.symm⟩⟩
  rw [if_neg c4]
  by_cases c5 : op = c%"$="
  · rw [if_pos c5]; refine tk _ _ _ ?_; subst c5
    rw [Bool.and_eq_true, endsWith_iff]
    simp only [OpHolds, List.IsSuffix]
    simp
    exact fun _ => ⟨fun ⟨t, e⟩ => ⟨t, e.symm⟩, fun ⟨t, e⟩ => ⟨t, e.symm⟩⟩
  rw [if_neg c5]
  by_cases c6 : op = c%"*="
  · rw [if_pos c6]; refine tk _ _ _ ?_; subst c6
    rw [Bool.and_eq_true, infix_iff]
    simp [OpHolds]
  rw [if_neg c6]
  exact Ok.pure (by simp [OpHolds, c1, c2, c3, c4, c5, c6])

theorem attrVal_is (n : Nat) (name v : Str) : attrVal U h n name = some v ↔ AttrIs U h n name v := attrsLower_is U h n name v

theorem matchAttr_ok (he : Budget E) (n : Nat) (name : Str) (op : Option (Str × Str)) :
    Ok (SelInv U h S D sat) (matchAttr U h n name op) (fun b => b = true ↔ ∃ v, AttrIs U h n name v ∧ ∀ o w, op = some (o, w) → OpHolds U o v w) E := by
  refine Ok.bind (attrValue_ok he n name) ?_
  rintro r rfl
  cases hv : attrVal U h n name with
  | none =>
    refine Ok.pure ⟨nofun, fun ⟨v, h1, _⟩ => ?_⟩
    rw [← attrVal_is, hv] at h1
    cases h1
  | some v =>
    have uniq : ∀ v', AttrIs U h n name v' → v' = v := fun v' h1 => by rw [← attrVal_is, hv] at h1; cases h1; rfl
    rcases op with _ | ⟨o, w⟩
    · exact Ok.pure ⟨fun _ => ⟨v, (attrVal_is n name v).1 hv, nofun⟩, fun _ => rfl⟩
    · refine (matchOp_ok he n name v o w hv).iff ?_
      constructor
      · intro ho
        exact ⟨v, (attrVal_is n name v).1 hv, fun o' w' e => by cases e; exact ho⟩
      · rintro ⟨v', h1, h2⟩
        rw [← uniq v' h1]
        exact h2 o w rfl

/-! ### Simple selectors -/

theorem find_some_split {α : Type} (p : α → Bool) (l : List α) (x : α) :
    l.find? p = some x ↔ p x = true ∧ ∃ a b, l = a ++ x :: b ∧ ∀ y ∈ a, p y = false := by
  rw [List.find?_eq_some_iff_append]
  simp

/-- A simple selector that raises no error. -/
def KnownSimple : Simple → Prop
  | .pseudo name arg _ => KnownPseudo name arg
  | _ => True

/-- `i` is the argument of a `:not`. -/
def Negates (i : Sel) : Simple → Prop
  | .pseudo name arg j => name = c%"not" ∧ arg.getD [] ≠ [] ∧ i = j
  | _ => False

theorem matchSimple_ok (H : SelHeap h) (he : Budget E) (inner : Sel → Nat → SM Bool) (n : Nat) (s : Simple)
    (hk : KnownSimple s ∨ (E .unsupported ∧ E .noArg))
    (hin : ∀ i, Negates i s → Ok (SelInv U h S D sat) (inner i n) (fun b => b = true ↔ satSel U (unquoteArg U) h i n) E) :
    Ok (SelInv U h S D sat) (matchSimple U h inner n s) (fun b => b = true ↔ satSimple U (unquoteArg U) h s n) E := by
  unfold matchSimple
  refine Ok.step selInv_steps he.steps ?_
  have hps : ∀ name arg sel, s = .pseudo name arg sel →
      Ok (SelInv U h S D sat) (matchPseudo U h inner n name arg sel) (fun b => b = true ↔ satSimple U (unquoteArg U) h s n) E := by
    rintro name arg sel rfl
    rw [satSimple]
    exact matchPseudo_ok H he inner n name arg sel _ hk fun h1 h2 => hin sel ⟨h1, h2, rfl⟩
  dsimp only
  by_cases hh : isHash (h.obj n).name = true
  · rw [if_pos hh]
    have hE := (isHash_iff h n).1 hh
    cases s with
    | pseudo name arg sel => exact hps _ _ _ rfl
    | _ => exact Ok.pure ⟨nofun, fun hs => absurd (by rw [satSimple] at hs; first | exact hs | exact hs.1) hE⟩
  · rw [if_neg hh]
    have hE := (isHash_false h n).1 (Bool.eq_false_iff.2 hh)
    cases s with
    | pseudo name arg sel => exact hps _ _ _ rfl
    | universal => exact Ok.pure ⟨fun _ => by rw [satSimple]; exact hE, fun _ => rfl⟩
    | tag t => refine Ok.pure ?_; rw [satSimple]; simp [hE]
    | id i =>
      refine Ok.pure ?_
      rw [satSimple, decide_eq_true_iff]
      have e1 : ∀ d : Dict, (d.find? fun p => decide (p.1 = c%"id")).map (·.2) = some (some i) ↔
          ∃ a b, d = a ++ (c%"id", some i) :: b ∧ ∀ q ∈ a, q.1 ≠ c%"id" := by
        intro d
        rw [Option.map_eq_some_iff]
        constructor
        · rintro ⟨⟨k, v⟩, h1, h2⟩
          rw [find_some_split] at h1
          obtain ⟨hkk, a, b, h3, h4⟩ := h1
          dsimp only at h2 hkk
          rw [decide_eq_true_iff] at hkk
          subst h2 hkk
          exact ⟨a, b, h3, fun q hq => by simpa using h4 q hq⟩
        · rintro ⟨a, b, h3, h4⟩
          exact ⟨(c%"id", some i), (find_some_split _ _ _).2 ⟨by simp, a, b, h3, fun q hq => by simpa using h4 q hq⟩, rfl⟩
      rw [e1]
      unfold Heap.attrsOf
      cases (h.obj n).attrs with
      | none => simp
      | some d =>
        constructor
        · rintro ⟨a, b, h1, h2⟩; exact ⟨hE, d, a, b, rfl, h1, h2⟩
        · rintro ⟨_, d', a, b, e, h1, h2⟩; cases e; exact ⟨a, b, h1, h2⟩
    | cls c =>
      refine Ok.bind (classTokens_ok he n) ?_
      rintro ts rfl
      refine Ok.pure ?_
      rw [List.contains_iff_mem, mem_words, satSimple]
      cases hv : attrVal U h n c%"class" with
      | none =>
        constructor
        · intro hw
          obtain ⟨h0, _, a, b, e, _⟩ := hw
          exact absurd (by simpa using congrArg List.length e) (by cases c <;> simp_all)
        · rintro ⟨_, v, h1, _⟩
          rw [← attrVal_is, hv] at h1
          cases h1
      | some v =>
        constructor
        · intro hw; exact ⟨hE, v, (attrVal_is n _ v).1 hv, hw⟩
        · rintro ⟨_, v', h1, hw⟩
          rw [← attrVal_is, hv] at h1
          cases h1
          exact hw
    | attr a op =>
      refine (matchAttr_ok he n a op).iff ?_
      rw [satSimple]
      exact ⟨fun hx => ⟨hE, hx⟩, fun hx => hx.2⟩

theorem matchSimples_ok (H : SelHeap h) (he : Budget E) (inner : Sel → Nat → SM Bool) (n : Nat) (l : List Simple)
    (hk : ∀ s ∈ l, KnownSimple s ∨ (E .unsupported ∧ E .noArg))
    (hin : ∀ s ∈ l, ∀ i, Negates i s → Ok (SelInv U h S D sat) (inner i n) (fun b => b = true ↔ satSel U (unquoteArg U) h i n) E) :
    Ok (SelInv U h S D sat) (matchSimples U h inner n l) (fun b => b = true ↔ satSimples U (unquoteArg U) h l n) E := by
  induction l with
  | nil => exact Ok.pure (by simp [satSimples])
  | cons s l ih =>
    rw [satSimples]
    exact ok_and (matchSimple_ok H he inner n s (hk s (by simp)) (hin s (by simp)))
      (ih (fun s' hs => hk s' (by simp [hs])) fun s' hs => hin s' (by simp [hs]))

end JH
