import Verif.Lemmas.SelChain
/-! Whole selectors. -/
namespace JH
open Spec

variable {U : Uni} {h : Heap} {S : Compound → Prop} {D : Nat} {E : SErr → Prop}

mutual
/-- All compounds of a selector, also those inside `:not`. -/
def simpleParts : Simple → List Compound
  | .pseudo _ _ i => selParts i
  | _ => []
def simplesParts : List Simple → List Compound
  | [] => []
  | s :: ss => simpleParts s ++ simplesParts ss
def compoundParts : Compound → List Compound
  | .mk k l => .mk k l :: simplesParts l
def complexParts : Complex → List Compound
  | .one c => compoundParts c
  | .comb l _ c => complexParts l ++ compoundParts c
def selParts : List Complex → List Compound
  | [] => []
  | x :: xs => complexParts x ++ selParts xs
end

mutual
/-- How deep `:not` is nested; a selector without has depth 1. -/
def simpleNest : Simple → Nat
  | .pseudo name arg i => if name = c%"not" ∧ arg.getD [] ≠ [] then selNest i + 1 else 0
  | _ => 0
def simplesNest : List Simple → Nat
  | [] => 0
  | s :: ss => max (simpleNest s) (simplesNest ss)
def compoundNest : Compound → Nat
  | .mk _ l => simplesNest l
def complexNest : Complex → Nat
  | .one c => compoundNest c
  | .comb l _ c => max (complexNest l) (compoundNest c)
def selNest : List Complex → Nat
  | [] => 0
  | x :: xs => max (complexNest x) (selNest xs)
end

/-- Induction along a chain. -/
theorem complex_ind {P : Complex → Prop} (h1 : ∀ c, P (.one c)) (h2 : ∀ l o c, P l → P (.comb l o c)) : ∀ x, P x
  | .one c => h1 c
  | .comb l o c => h2 l o c (complex_ind h1 h2 l)

/-- What is needed of a compound. -/
structure PartOk (U : Uni) (S : Compound → Prop) (E : SErr → Prop) (C : Compound) : Prop where
  reg : S C
  low : ∀ t, Simple.tag t ∈ C.simples → U.lower t = t
  known : ∀ s ∈ C.simples, KnownSimple s ∨ (E .unsupported ∧ E .noArg)

theorem simplesParts_mem {l : List Simple} {s : Simple} (hs : s ∈ l) : ∀ C ∈ simpleParts s, C ∈ simplesParts l := by
  induction l with
  | nil => cases hs
  | cons x l ih =>
    intro C hC
    rw [simplesParts]
    rcases List.mem_cons.1 hs with rfl | hs
    · exact List.mem_append_left _ hC
    · exact List.mem_append_right _ (ih hs C hC)

theorem simplesNest_mem {l : List Simple} {s : Simple} (hs : s ∈ l) : simpleNest s ≤ simplesNest l := by
  induction l with
  | nil => cases hs
  | cons x l ih =>
    rw [simplesNest]
    rcases List.mem_cons.1 hs with rfl | hs
    · omega
    · have := ih hs; omega

theorem plainSimples_mem {unq : Str → Str} {l : List Simple} (hl : plainSimples U unq h l) : ∀ s ∈ l, plainSimple U unq h s := by
  induction l with
  | nil => nofun
  | cons x l ih =>
    rw [plainSimples] at hl
    intro s hs
    rcases List.mem_cons.1 hs with rfl | hs
    · exact hl.1
    · exact ih hl.2 s hs

theorem self_part (C : Compound) : C ∈ compoundParts C := by cases C; simp [compoundParts]

theorem last_part (x : Complex) : x.last ∈ complexParts x := by
  cases x with
  | one c => exact self_part c
  | comb l o c => rw [complexParts]; exact List.mem_append_right _ (self_part c)

theorem satComplex_last {unq : Str → Str} {x : Complex} {n : Nat} (hx : satComplex U unq h x n) : satCompound U unq h x.last n := by
  cases x with
  | one c => rw [satComplex] at hx; exact hx
  | comb l o c => rw [satComplex] at hx; exact hx.1

theorem satSel_iff {unq : Str → Str} {l : Sel} {n : Nat} : satSel U unq h l n ↔ ∃ x ∈ l, satComplex U unq h x n := by
  induction l with
  | nil => simp [satSel]
  | cons x l ih => rw [satSel, ih]; simp

/-- Moving the right end of a chain to a node that is as good. -/
theorem satComplex_move {unq : Str → Str} (F : Forest h) {left : Complex} {op : Comb} (hf : Forward left op) {m a : Nat} (hm : satComplex U unq h left m)
    (ha : satCompound U unq h left.last a) (hma : (op = .desc ∧ Above h m a) ∨ (op = .sib ∧ Related h .sib m a)) : satComplex U unq h left a := by
  cases left with
  | one c => rw [satComplex]; exact ha
  | comb l o c =>
    rw [satComplex] at hm ⊢
    obtain ⟨_, k, hk, hl⟩ := hm
    refine ⟨ha, k, ?_, hl⟩
    rcases hma with ⟨rfl, hma⟩ | ⟨rfl, hma⟩
    · have := hf.1 rfl o rfl
      subst this
      exact above_trans hk hma
    · have ho := hf.2 rfl o rfl
      obtain ⟨_, hma⟩ := hma
      obtain ⟨p, hp1, hp2⟩ := earlier_parent F hma
      cases o with
      | adj => exact absurd rfl ho
      | desc =>
        obtain ⟨q, h1, h2⟩ := above_iff.1 hk
        rw [hp2] at h1
        cases h1
        exact above_iff.2 ⟨p, hp1, h2⟩
      | child =>
        have hk : (h.obj m).parent = some k := hk
        rw [hp2] at hk
        cases hk
        exact hp1
      | sib =>
        refine ⟨hk.1, ?_⟩
        have h1 := (earlier_iff F hp1).1 hma
        have h2 := (earlier_iff F hp2).1 hk.2
        rw [earlier_iff F hp1]
        refine ⟨h1.1, ?_⟩
        obtain ⟨c1, e1, n1⟩ := split_mem h1.1
        obtain ⟨c2, e2, n2⟩ := split_mem h1.2
        have hkm := h2.2
        rw [e1, e2, List.append_assoc, List.cons_append, sibsBefore_split n2] at hkm
        exact before_mem hkm

/-- The compounds of a chain are matched exactly. -/
def ChainOk (U : Uni) (h : Heap) (I : SCtx → Prop) (E : SErr → Prop) (inner : Sel → Nat → SM Bool) : Complex → Prop
  | .one c => ∀ n, Ok I (matchCompound U h inner n c) (fun b => b = true ↔ meaning U h c n) E
  | .comb l _ c => ChainOk U h I E inner l ∧ ∀ n, Ok I (matchCompound U h inner n c) (fun b => b = true ↔ meaning U h c n) E

theorem chainOk_last {I : SCtx → Prop} {inner : Sel → Nat → SM Bool} {x : Complex} (hx : ChainOk U h I E inner x) (n : Nat) :
    Ok I (matchCompound U h inner n x.last) (fun b => b = true ↔ meaning U h x.last n) E := by
  cases x with
  | one c => exact hx n
  | comb l o c => exact hx.2 n

/-- Chains without choices to undo. -/
theorem matchChain_exact (H : SelHeap h) (he : Budget E) (hk : KeyInj S) (inner : Sel → Nat → SM Bool) (d : Nat) (hd : d < D) (x : Complex)
    (hx : ChainOk U h (SelInv U h S D (meaning U h)) E inner x) (hp : plainComplex U (unquoteArg U) h x) (hpart : ∀ C ∈ complexParts x, PartOk U S E C) :
    ∀ n, meaning U h x.last n →
      Ok (SelInv U h S D (meaning U h)) (matchChain U h inner d x n) (fun b => b = true ↔ satComplex U (unquoteArg U) h x n) E := by
  induction x using complex_ind with
  | h1 c =>
    intro n hn
    rw [matchChain]
    exact Ok.pure ⟨fun _ => by rw [satComplex]; exact hn, fun _ => rfl⟩
  | h2 left op c ih =>
    intro n hn
    rw [plainComplex] at hp
    have hpl : ∀ C ∈ complexParts left, PartOk U S E C := fun C hC => hpart C (by rw [complexParts]; exact List.mem_append_left _ hC)
    have ih := ih hx.1 hp.1 hpl
    have hL := hpl left.last (last_part left)
    have hCL := chainOk_last hx.1
    have hn : satCompound U (unquoteArg U) h c n := hn
    simp only [satComplex]
    cases op with
    | desc =>
      rw [matchChain]
      refine Ok.bind (closestAnc_ok H he inner d left.last hL.reg hk hCL n fun _ hs => hp.2.2.2 rfl n ⟨hs, hn⟩) ?_
      rintro (_ | a) ⟨hr1, hr2⟩
      · refine Ok.pure ⟨nofun, ?_⟩
        rintro ⟨_, m, hm, hl⟩
        exact absurd (satComplex_last hl) (hr2 hd m hm)
      · obtain ⟨h1, h2, h3⟩ := hr2 hd
        refine (ih a h2).iff ?_
        constructor
        · intro hl; exact ⟨hn, a, h1, hl⟩
        · rintro ⟨_, m, hm, hl⟩
          rcases h3 m hm (satComplex_last hl) with rfl | h4
          · exact hl
          · exact satComplex_move H.forest hp.2.2.1 hl h2 (.inl ⟨rfl, h4⟩)
    | child =>
      rw [matchChain]
      cases hpar : (h.obj n).parent with
      | none =>
        refine Ok.pure ⟨nofun, ?_⟩
        rintro ⟨_, m, hm, _⟩
        have hm : (h.obj n).parent = some m := hm
        rw [hpar] at hm
        cases hm
      | some p =>
        have uniq : ∀ m, Related h .child m n → m = p := fun m hm => by
          have hm : (h.obj n).parent = some m := hm
          rw [hpar] at hm
          cases hm
          rfl
        refine Ok.bind (hCL p) ?_
        intro b hb
        cases b with
        | true =>
          refine (ih p (hb.1 rfl)).iff ?_
          constructor
          · intro hl; exact ⟨hn, p, hpar, hl⟩
          · rintro ⟨_, m, hm, hl⟩
            rw [← uniq m hm]; exact hl
        | false =>
          refine Ok.pure ⟨nofun, ?_⟩
          rintro ⟨_, m, hm, hl⟩
          have := satComplex_last hl
          rw [uniq m hm] at this
          exact absurd (hb.2 this) nofun
    | adj =>
      rw [matchChain]
      refine Ok.bind (prevElement_ok H he n) ?_
      rintro (_ | s) hs
      · refine Ok.pure ⟨nofun, ?_⟩
        rintro ⟨_, m, hm, _⟩
        exact absurd ((hs m).2 hm) nofun
      · refine Ok.bind (hCL s) ?_
        intro b hb
        have uniq : ∀ m, Related h .adj m n → m = s := fun m hm => by
          have := (hs m).2 hm
          cases this
          rfl
        cases b with
        | true =>
          refine (ih s (hb.1 rfl)).iff ?_
          constructor
          · intro hl; exact ⟨hn, s, (hs s).1 rfl, hl⟩
          · rintro ⟨_, m, hm, hl⟩
            rw [← uniq m hm]; exact hl
        | false =>
          refine Ok.pure ⟨nofun, ?_⟩
          rintro ⟨_, m, hm, hl⟩
          have := satComplex_last hl
          rw [uniq m hm] at this
          exact absurd (hb.2 this) nofun
    | sib =>
      rw [matchChain]
      refine Ok.bind (prevMatching_ok H he inner d left.last hL.reg hk hL.low hCL n) ?_
      rintro (_ | a) hr
      · refine Ok.pure ⟨nofun, ?_⟩
        rintro ⟨_, m, hm, hl⟩
        exact absurd (satComplex_last hl) (hr m hm)
      · obtain ⟨h1, h2, h3⟩ := hr
        refine (ih a h2).iff ?_
        constructor
        · intro hl; exact ⟨hn, a, h1, hl⟩
        · rintro ⟨_, m, hm, hl⟩
          rcases h3 m hm (satComplex_last hl) with rfl | h4
          · exact hl
          · exact satComplex_move H.forest hp.2.2.1 hl h2 (.inr ⟨rfl, h4⟩)

/-- Any chain: what is matched is right. -/
theorem matchChain_sound (H : SelHeap h) (he : Budget E) (hk : KeyInj S) (inner : Sel → Nat → SM Bool) (d : Nat) (hd : D ≤ d) (x : Complex)
    (hx : ChainOk U h (SelInv U h S D (meaning U h)) E inner x) (hpart : ∀ C ∈ complexParts x, PartOk U S E C) :
    ∀ n, meaning U h x.last n →
      Ok (SelInv U h S D (meaning U h)) (matchChain U h inner d x n) (fun b => b = true → satComplex U (unquoteArg U) h x n) E := by
  induction x using complex_ind with
  | h1 c =>
    intro n hn
    rw [matchChain]
    exact Ok.pure fun _ => by rw [satComplex]; exact hn
  | h2 left op c ih =>
    intro n hn
    have hpl : ∀ C ∈ complexParts left, PartOk U S E C := fun C hC => hpart C (by rw [complexParts]; exact List.mem_append_left _ hC)
    have ih := ih hx.1 hpl
    have hL := hpl left.last (last_part left)
    have hCL := chainOk_last hx.1
    have hn : satCompound U (unquoteArg U) h c n := hn
    simp only [satComplex]
    cases op with
    | desc =>
      rw [matchChain]
      refine Ok.bind (closestAnc_ok H he inner d left.last hL.reg hk hCL n fun h' => by omega) ?_
      rintro (_ | a) ⟨hr1, -⟩
      · exact Ok.pure nofun
      · exact (ih a (hr1 a rfl).2).mono fun b hb e => ⟨hn, a, (hr1 a rfl).1, hb e⟩
    | child =>
      rw [matchChain]
      cases hpar : (h.obj n).parent with
      | none => exact Ok.pure nofun
      | some p =>
        refine Ok.bind (hCL p) ?_
        intro b hb
        cases b with
        | true => exact (ih p (hb.1 rfl)).mono fun b hb e => ⟨hn, p, hpar, hb e⟩
        | false => exact Ok.pure nofun
    | adj =>
      rw [matchChain]
      refine Ok.bind (prevElement_ok H he n) ?_
      rintro (_ | s) hs
      · exact Ok.pure nofun
      · refine Ok.bind (hCL s) ?_
        intro b hb
        cases b with
        | true => exact (ih s (hb.1 rfl)).mono fun b hb e => ⟨hn, s, (hs s).1 rfl, hb e⟩
        | false => exact Ok.pure nofun
    | sib =>
      rw [matchChain]
      refine Ok.bind (prevMatching_ok H he inner d left.last hL.reg hk hL.low hCL n) ?_
      rintro (_ | a) hr
      · exact Ok.pure nofun
      · exact (ih a hr.2.1).mono fun b hb e => ⟨hn, a, hr.1, hb e⟩

/-- Nested selectors are matched exactly, so compounds are. -/
theorem matchCompound_exact (H : SelHeap h) (he : Budget E) (inner : Sel → Nat → SM Bool) (C : Compound) (hpart : PartOk U S E C)
    (hin : ∀ s ∈ C.simples, ∀ i, Negates i s → ∀ n, Ok (SelInv U h S D (meaning U h)) (inner i n) (fun b => b = true ↔ satSel U (unquoteArg U) h i n) E) (n : Nat) :
    Ok (SelInv U h S D (meaning U h)) (matchCompound U h inner n C) (fun b => b = true ↔ meaning U h C n) E := by
  obtain ⟨k, l⟩ := C
  exact matchSimples_ok H he inner n l hpart.known fun s hs i hi => hin s hs i hi n

theorem matchSel_shape (d : Nat) (sel : Sel) (n : Nat) : matchSel U h (d + 1) sel n = (do
    tick
    work1
    match sel with
    | [x] => matchComplex U h (matchSel U h d) d x n
    | l => matchAny U h (matchSel U h d) d n l) := by
  rw [matchSel.eq_def]
  rfl

theorem matchComplex_of {I : SCtx → Prop} {inner : Sel → Nat → SM Bool} {d : Nat} {x : Complex} {n : Nat} {P : Prop}
    (h1 : Ok I (matchCompound U h inner n x.last) (fun b => b = true ↔ meaning U h x.last n) E)
    (h2 : meaning U h x.last n → Ok I (matchChain U h inner d x n) (fun b => b = true ↔ P) E) (h3 : P → meaning U h x.last n) :
    Ok I (matchComplex U h inner d x n) (fun b => b = true ↔ P) E := by
  refine Ok.bind h1 ?_
  intro b hb
  cases b with
  | true => exact h2 (hb.1 rfl)
  | false => exact Ok.pure ⟨nofun, fun hP => absurd (hb.2 (h3 hP)) nofun⟩

theorem matchAny_of {I : SCtx → Prop} (hI : Steps I) (hs : E .steps) {inner : Sel → Nat → SM Bool} {d : Nat} {l : Sel} {n : Nat} {P : Complex → Prop}
    (hl : ∀ x ∈ l, Ok I (matchComplex U h inner d x n) (fun b => b = true ↔ P x) E) :
    Ok I (matchAny U h inner d n l) (fun b => b = true ↔ ∃ x ∈ l, P x) E := by
  induction l with
  | nil => exact Ok.pure (by simp)
  | cons x l ih =>
    refine Ok.step hI hs ?_
    refine Ok.bind (hl x (by simp)) ?_
    intro b hb
    cases b with
    | true => exact Ok.pure ⟨fun _ => ⟨x, by simp, hb.1 rfl⟩, fun _ => rfl⟩
    | false =>
      refine (ih fun y hy => hl y (by simp [hy])).iff ?_
      constructor
      · rintro ⟨y, hy, hP⟩; exact ⟨y, by simp [hy], hP⟩
      · rintro ⟨y, hy, hP⟩
        rcases List.mem_cons.1 hy with rfl | hy
        · exact absurd (hb.2 hP) nofun
        · exact ⟨y, hy, hP⟩

theorem matchSel_of {I : SCtx → Prop} (hI : Steps I) (hs : E .steps) {d : Nat} {l : Sel} {n : Nat} {P : Complex → Prop}
    (hl : ∀ x ∈ l, Ok I (matchComplex U h (matchSel U h d) d x n) (fun b => b = true ↔ P x) E) :
    Ok I (matchSel U h (d + 1) l n) (fun b => b = true ↔ ∃ x ∈ l, P x) E := by
  rw [matchSel_shape]
  refine Ok.step hI hs ?_
  match l with
  | [] => exact matchAny_of hI hs hl
  | [x] => exact (hl x (by simp)).iff (by simp)
  | x :: y :: l => exact matchAny_of hI hs hl

theorem plainSel_mem {unq : Str → Str} {l : Sel} (hl : plainSel U unq h l) : ∀ x ∈ l, plainComplex U unq h x := by
  induction l with
  | nil => nofun
  | cons x l ih =>
    rw [plainSel] at hl
    intro y hy
    rcases List.mem_cons.1 hy with rfl | hy
    · exact hl.1
    · exact ih hl.2 y hy

theorem selParts_mem {l : Sel} {x : Complex} (hx : x ∈ l) : ∀ C ∈ complexParts x, C ∈ selParts l := by
  induction l with
  | nil => cases hx
  | cons y l ih =>
    intro C hC
    rw [selParts]
    rcases List.mem_cons.1 hx with rfl | hx
    · exact List.mem_append_left _ hC
    · exact List.mem_append_right _ (ih hx C hC)

theorem selNest_mem {l : Sel} {x : Complex} (hx : x ∈ l) : complexNest x ≤ selNest l := by
  induction l with
  | nil => cases hx
  | cons y l ih =>
    rw [selNest]
    rcases List.mem_cons.1 hx with rfl | hx
    · omega
    · have := ih hx; omega

theorem negates_facts {unq : Str → Str} {C : Compound} {s : Simple} (hs : s ∈ C.simples) {i : Sel} (hi : Negates i s) :
    (∀ D ∈ selParts i, D ∈ compoundParts C) ∧ selNest i + 1 ≤ compoundNest C ∧ (plainCompound U unq h C → plainSel U unq h i) := by
  obtain ⟨k, l⟩ := C
  have hs : s ∈ l := hs
  cases s with
  | pseudo name arg j =>
    obtain ⟨h1, h2, rfl⟩ := hi
    refine ⟨?_, ?_, ?_⟩
    · intro D hD
      rw [compoundParts]
      exact List.mem_cons_of_mem _ (simplesParts_mem hs D (by rw [simpleParts]; exact hD))
    · have := simplesNest_mem hs
      rw [simpleNest, if_pos ⟨h1, h2⟩] at this
      rw [compoundNest]
      exact this
    · intro hp
      rw [plainCompound] at hp
      have := plainSimples_mem hp _ hs
      rw [plainSimple] at this
      exact this
  | _ => exact absurd hi (by simp [Negates])

/-- The compounds of a chain are matched exactly if selectors nested in them are. -/
theorem chainOk_of (H : SelHeap h) (he : Budget E) (inner : Sel → Nat → SM Bool) (k : Nat)
    (hin : ∀ i, (∀ D ∈ selParts i, PartOk U S E D) → (selNest i < k ∨ E .depth) → plainSel U (unquoteArg U) h i → ∀ n,
      Ok (SelInv U h S D (meaning U h)) (inner i n) (fun b => b = true ↔ satSel U (unquoteArg U) h i n) E) (x : Complex)
    (hp : plainInside U (unquoteArg U) h x) (hpart : ∀ C ∈ complexParts x, PartOk U S E C) (hk : complexNest x ≤ k ∨ E .depth) :
    ChainOk U h (SelInv U h S D (meaning U h)) E inner x := by
  have one : ∀ C, (∀ D ∈ compoundParts C, PartOk U S E D) → (compoundNest C ≤ k ∨ E .depth) → plainCompound U (unquoteArg U) h C → ∀ n,
      Ok (SelInv U h S D (meaning U h)) (matchCompound U h inner n C) (fun b => b = true ↔ meaning U h C n) E := by
    intro C hC hkC hpC n
    refine matchCompound_exact H he inner C (hC C (self_part C)) ?_ n
    intro s hs i hi n
    obtain ⟨h1, h2, h3⟩ := negates_facts (U := U) (h := h) (unq := unquoteArg U) hs hi
    exact hin i (fun D hD => hC D (h1 D hD)) (hkC.imp (fun hx => by omega) id) (h3 hpC) n
  induction x using complex_ind with
  | h1 c => exact one c hpart hk hp
  | h2 l o c ih =>
    rw [complexNest] at hk
    exact ⟨ih hp.1 (fun C hC => hpart C (by rw [complexParts]; exact List.mem_append_left _ hC)) (hk.imp (fun hx => by omega) id),
      one c (fun C hC => hpart C (by rw [complexParts]; exact List.mem_append_right _ hC)) (hk.imp (fun hx => by omega) id) hp.2⟩

theorem plainComplex_inside {unq : Str → Str} {x : Complex} (hx : plainComplex U unq h x) : plainInside U unq h x := by
  induction x using complex_ind with
  | h1 c => rw [plainComplex] at hx; exact hx
  | h2 l o c ih => rw [plainComplex] at hx; exact ⟨ih hx.1, hx.2.1⟩

/-- Selectors without choices to undo are matched exactly. -/
theorem matchSel_exact (H : SelHeap h) (he : Budget E) (hk : KeyInj S) : ∀ d, d ≤ D → ∀ sel, (∀ C ∈ selParts sel, PartOk U S E C) →
    (selNest sel < d ∨ E .depth) → plainSel U (unquoteArg U) h sel → ∀ n,
    Ok (SelInv U h S D (meaning U h)) (matchSel U h d sel n) (fun b => b = true ↔ satSel U (unquoteArg U) h sel n) E := by
  intro d
  induction d with
  | zero =>
    intro _ sel _ hd _ n
    rw [matchSel]
    exact Ok.step selInv_steps he.steps (Ok.fail (hd.resolve_left (by omega)))
  | succ d ih =>
    intro hdD sel hpart hd hp n
    refine (matchSel_of selInv_steps he.steps (P := fun x => satComplex U (unquoteArg U) h x n) ?_).iff satSel_iff.symm
    intro x hx
    have hpx : ∀ C ∈ complexParts x, PartOk U S E C := fun C hC => hpart C (selParts_mem hx C hC)
    have hpl := plainSel_mem hp x hx
    have hch := chainOk_of H he (matchSel U h d) d (ih (by omega)) x (plainComplex_inside hpl) hpx
      (hd.imp (fun h' => by have := selNest_mem hx; omega) id)
    exact matchComplex_of (chainOk_last hch n) (fun hm => matchChain_exact H he hk _ d (by omega) x hch hpl hpx n hm) satComplex_last

/-- For any selector whose `:not` arguments are without choices to undo, what is matched is right. -/
theorem matchSel_sound (H : SelHeap h) (he : Budget E) (hk : KeyInj S) (sel : Sel) (hpart : ∀ C ∈ selParts sel, PartOk U S E C)
    (hd : selNest sel < D + 1 ∨ E .depth) (hp : ∀ x ∈ sel, plainInside U (unquoteArg U) h x) (n : Nat) :
    Ok (SelInv U h S D (meaning U h)) (matchSel U h (D + 1) sel n) (fun b => b = true → satSel U (unquoteArg U) h sel n) E := by
  have one : ∀ x ∈ sel, Ok (SelInv U h S D (meaning U h)) (matchComplex U h (matchSel U h D) D x n) (fun b => b = true → satComplex U (unquoteArg U) h x n) E := by
    intro x hx
    have hpx : ∀ C ∈ complexParts x, PartOk U S E C := fun C hC => hpart C (selParts_mem hx C hC)
    have hch := chainOk_of H he (matchSel U h D) D (matchSel_exact H he hk D (Nat.le_refl _)) x (hp x hx) hpx
      (hd.imp (fun h' => by have := selNest_mem hx; omega) id)
    refine Ok.bind (chainOk_last hch n) ?_
    intro b hb
    cases b with
    | true => exact matchChain_sound H he hk _ D (Nat.le_refl _) x hch hpx n (hb.1 rfl)
    | false => exact Ok.pure nofun
  have any : ∀ l : Sel, (∀ x ∈ l, x ∈ sel) → Ok (SelInv U h S D (meaning U h)) (matchAny U h (matchSel U h D) D n l)
      (fun b => b = true → satSel U (unquoteArg U) h sel n) E := by
    intro l
    induction l with
    | nil => intro _; exact Ok.pure nofun
    | cons x l ih =>
      intro hl
      refine Ok.step selInv_steps he.steps ?_
      refine Ok.bind (one x (hl x (by simp))) ?_
      intro b hb
      cases b with
      | true => exact Ok.pure fun _ => satSel_iff.2 ⟨x, hl x (by simp), hb rfl⟩
      | false => exact ih fun y hy => hl y (by simp [hy])
  rw [matchSel_shape]
  refine Ok.step selInv_steps he.steps ?_
  match sel, one, any with
  | [], _, any => exact any [] (by simp)
  | [x], one, _ => exact (one x (by simp)).mono fun b hb e => satSel_iff.2 ⟨x, by simp, hb e⟩
  | x :: y :: l, _, any => exact any _ fun _ => id

end JH
