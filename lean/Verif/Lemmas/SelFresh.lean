import Verif.Lemmas.SelSat
import Verif.Lemmas.SelFrame
/-! Matching a single node with new caches: every entry that the top level of the selector could use wrongly is still missing. -/
namespace JH
open Spec

variable {α β : Type} {U : Uni} {h : Heap} {S : Compound → Prop} {E : SErr → Prop}

/-- As `Ok`, with different conditions before and after; nothing is said about the context of an error. -/
def OkP (I J : SCtx → Prop) (m : SM α) (Q : α → Prop) (E : SErr → Prop) : Prop :=
  ∀ c, I c → (∀ a, (m c).1 = .ok a → J (m c).2 ∧ Q a) ∧ ∀ e, (m c).1 = .error e → E e

theorem OkP.bind {I J K : SCtx → Prop} {Q : α → Prop} {R : β → Prop} {x : SM α} {f : α → SM β} (hx : OkP I J x Q E) (hf : ∀ a, Q a → OkP J K (f a) R E) :
    OkP I K (x >>= f) R E := by
  intro c hi
  have h1 := hx c hi
  rw [bind_run]
  rcases hc : x c with ⟨r, c'⟩
  rw [hc] at h1
  cases r with
  | error e => exact ⟨nofun, fun e' he => by cases he; exact h1.2 e rfl⟩
  | ok a =>
    obtain ⟨h2, h3⟩ := h1.1 a rfl
    exact hf a h3 c' h2

theorem OkP.pure {I J : SCtx → Prop} {Q : α → Prop} {a : α} (hq : Q a) (hij : ∀ c, I c → J c) : OkP I J (pure a) Q E := fun c hi =>
  ⟨fun b e => by cases e; exact ⟨hij c hi, hq⟩, nofun⟩

theorem OkP.iff {I J : SCtx → Prop} {x : SM Bool} {P Q : Prop} (hx : OkP I J x (fun b => b = true ↔ P) E) (hpq : P ↔ Q) :
    OkP I J x (fun b => b = true ↔ Q) E := fun c hc =>
  ⟨fun a ha => ⟨((hx c hc).1 a ha).1, ((hx c hc).1 a ha).2.trans hpq⟩, (hx c hc).2⟩

theorem OkP.weaken {I I' J : SCtx → Prop} {Q : α → Prop} {x : SM α} (hx : OkP I J x Q E) (hi : ∀ c, I' c → I c) : OkP I' J x Q E := fun c hc => hx c (hi c hc)

theorem Ok.both {I F : SCtx → Prop} {Q : α → Prop} {x : SM α} (hx : Ok I x Q E) (hf : Keeps F x) : Ok (fun c => I c ∧ F c) x Q E := fun c hc =>
  ⟨⟨(hx c hc.1).1, (hf c hc.2).1⟩, (hx c hc.1).2.1, (hx c hc.1).2.2⟩

theorem Ok.toP {I : SCtx → Prop} {Q : α → Prop} {x : SM α} (hx : Ok I x Q E) : OkP I I x Q E := fun c hc =>
  ⟨fun a ha => ⟨(hx c hc).1, (hx c hc).2.1 a ha⟩, (hx c hc).2.2⟩

/-- Nothing is known yet about the ancestors for the keys in `L`, at depth `d`. -/
def Unused (d : Nat) (L : List Nat) (c : SCtx) : Prop := ∀ k ∈ L, ∀ n, c.anc k d n = none

theorem unused_closed (d : Nat) (L : List Nat) : Closed (Unused d L) d where
  steps _ hc _ := hc
  bytes _ _ hc := hc
  parent _ _ hc := hc
  attrs _ _ hc := hc
  nth _ _ hc := hc
  text _ _ hc := hc
  prev _ _ hc := hc
  anc _ _ hc hx := fun k hk n => (hx k d n (Nat.le_refl _)).trans (hc k hk n)

/-- The invariant. -/
def Fresh (U : Uni) (h : Heap) (S : Compound → Prop) (d : Nat) (L : List Nat) (c : SCtx) : Prop := SelInv U h S d (meaning U h) c ∧ Unused d L c

theorem fresh_steps (d : Nat) (L : List Nat) : Steps (Fresh U h S d L) := fun c hc h0 => ⟨selInv_steps c hc.1 h0, hc.2⟩

theorem fresh_less {d : Nat} {L M : List Nat} (hl : ∀ k ∈ M, k ∈ L) (c : SCtx) (hc : Fresh U h S d L c) : Fresh U h S d M c := ⟨hc.1, fun k hk => hc.2 k (hl k hk)⟩

theorem closestAnc_fresh (H : SelHeap h) (he : Budget E) (inner : Sel → Nat → SM Bool) (d : Nat) (C : Compound) (hS : S C) (hk : KeyInj S) (L : List Nat) (hL : C.key ∉ L)
    (hC : ∀ n, Ok (SelInv U h S d (meaning U h)) (matchCompound U h inner n C) (fun b => b = true ↔ meaning U h C n) E)
    (hin : ∀ s n, Keeps (Unused d (C.key :: L)) (inner s n)) (n : Nat) :
    OkP (Fresh U h S d (C.key :: L)) (Fresh U h S d L) (closestAnc U h inner d C n) (Closest h (meaning U h C) n) E := by
  unfold closestAnc
  refine OkP.bind (Q := fun r => r = none) (Ok.toP (Ok.get fun c hc => hc.2 C.key (by simp) n)) ?_
  rintro r rfl
  refine OkP.bind (Q := fun _ => True) (Ok.toP (Ok.get fun _ _ => trivial)) ?_
  intro s _
  have hC' : ∀ n, Ok (Fresh U h S d (C.key :: L)) (matchCompound U h inner n C) (fun b => b = true ↔ meaning U h C n) E := fun n =>
    (hC n).both (matchCompound_keeps (unused_closed d _) inner hin n C)
  refine OkP.bind (Ok.toP (ancLoop_ok H he.steps (fresh_steps d _) inner d C True hC'
    (fun c hc m r hr => by rw [hc.2 C.key (by simp) m] at hr; cases hr) n (s + 1) [n] [] (h.obj n).parent
    (fun m hm => by rcases hm with rfl | hm; exact upTo_start _ _; cases hm) (by simp)
    (fun a ha v hv => by rw [List.mem_singleton.1 hv]; exact .parent ha) (fun m hm => by rcases hm with rfl | hm; simp; cases hm))) ?_
  rintro r ⟨h1, h2⟩
  intro c hc
  refine ⟨?_, nofun⟩
  intro a ha
  have ha : Except.ok (ε := SErr) r.1 = .ok a := ha
  cases ha
  refine ⟨⟨⟨hc.1.parent, hc.1.attrs, hc.1.nth, hc.1.text, ?_, hc.1.prev⟩, ?_⟩, (h1 n (.inl rfl)).2 trivial⟩
  · intro C' hS' e m r' hr
    replace hr : (if C'.key = C.key ∧ e = d ∧ (m = n ∨ m ∈ r.2) then some r.1 else c.anc C'.key e m) = some r' := hr
    by_cases hm : C'.key = C.key ∧ e = d ∧ (m = n ∨ m ∈ r.2)
    · rw [if_pos hm] at hr
      cases hr
      obtain ⟨h3, h4, h5⟩ := hm
      have := hk C' C hS' hS h3
      subst this h4
      exact ⟨(h1 m h5).1, fun ht => absurd ht (Nat.lt_irrefl _)⟩
    · rw [if_neg hm] at hr
      exact hc.1.anc C' hS' e m r' hr
  · intro k hkL m
    show (if k = C.key ∧ d = d ∧ (m = n ∨ m ∈ r.2) then some r.1 else c.anc k d m) = none
    rw [if_neg]
    · exact hc.2 k (by simp [hkL]) m
    · rintro ⟨rfl, _⟩
      exact hL hkL

/-- The keys of the parts to the left. -/
def leftKeys : Complex → List Nat
  | .one _ => []
  | .comb l _ _ => l.last.key :: leftKeys l

theorem matchChain_fresh (H : SelHeap h) (he : Budget E) (hk : KeyInj S) (inner : Sel → Nat → SM Bool) (d : Nat)
    (hin : ∀ L s n, Keeps (Unused d L) (inner s n)) (x : Complex)
    (hx : ChainOk U h (SelInv U h S d (meaning U h)) E inner x) (hp : forwardChain x) (hpart : ∀ C ∈ complexParts x, PartOk U S E C) :
    ∀ L n, (leftKeys x ++ L).Nodup → meaning U h x.last n →
      OkP (Fresh U h S d (leftKeys x ++ L)) (Fresh U h S d L) (matchChain U h inner d x n) (fun b => b = true ↔ satComplex U (unquoteArg U) h x n) E := by
  induction x using complex_ind with
  | h1 c =>
    intro L n _ hn
    rw [matchChain]
    exact OkP.pure ⟨fun _ => by rw [satComplex]; exact hn, fun _ => rfl⟩ fun c hc => hc
  | h2 left op c ih =>
    intro L n hnd hn
    have hpl : ∀ C ∈ complexParts left, PartOk U S E C := fun C hC => hpart C (by rw [complexParts]; exact List.mem_append_left _ hC)
    have ih := ih hx.1 hp.1 hpl
    have hL := hpl left.last (last_part left)
    have hCL := chainOk_last hx.1
    have hn : satCompound U (unquoteArg U) h c n := hn
    have hnd' : (leftKeys left ++ L).Nodup := (List.nodup_cons.1 hnd).2
    have hkn : left.last.key ∉ leftKeys left ++ L := (List.nodup_cons.1 hnd).1
    have drop : ∀ s, Fresh U h S d (leftKeys (.comb left op c) ++ L) s → Fresh U h S d (leftKeys left ++ L) s :=
      fun s hs => fresh_less (fun k hk => List.mem_cons_of_mem _ hk) s hs
    have drop' : ∀ s, Fresh U h S d (leftKeys (.comb left op c) ++ L) s → Fresh U h S d L s :=
      fun s hs => fresh_less (fun k hk => List.mem_append_right _ hk) s hs
    have hCP : ∀ n, OkP (Fresh U h S d (leftKeys left ++ L)) (Fresh U h S d (leftKeys left ++ L)) (matchCompound U h inner n left.last)
        (fun b => b = true ↔ meaning U h left.last n) E := fun n =>
      Ok.toP ((hCL n).both (matchCompound_keeps (unused_closed d _) inner (hin _) n _))
    simp only [satComplex]
    cases op with
    | desc =>
      rw [matchChain]
      refine OkP.bind (closestAnc_fresh H he inner d left.last hL.reg hk (leftKeys left ++ L) hkn hCL (hin _) n) ?_
      rintro (_ | a) hr
      · refine OkP.pure ⟨nofun, ?_⟩ fun s hs => fresh_less (fun k hk => List.mem_append_right _ hk) s hs
        rintro ⟨_, m, hm, hl⟩
        exact absurd (satComplex_last hl) (hr m hm)
      · obtain ⟨h1, h2, h3⟩ := hr
        refine (ih L a hnd' h2).iff ?_
        constructor
        · intro hl; exact ⟨hn, a, h1, hl⟩
        · rintro ⟨_, m, hm, hl⟩
          rcases h3 m hm (satComplex_last hl) with rfl | h4
          · exact hl
          · exact satComplex_move H.forest hp.2 hl h2 (.inl ⟨rfl, h4⟩)
    | child =>
      rw [matchChain]
      cases hpar : (h.obj n).parent with
      | none =>
        refine OkP.pure ⟨nofun, ?_⟩ drop'
        rintro ⟨_, m, hm, _⟩
        have hm : (h.obj n).parent = some m := hm
        rw [hpar] at hm
        cases hm
      | some p =>
        have uniq : ∀ m, Related h .child m n → m = p := fun m hm => by
          have hm : (h.obj n).parent = some m := hm
          rw [hpar] at hm
          cases hm
          rfl
        refine OkP.bind ((hCP p).weaken drop) ?_
        intro b hb
        cases b with
        | true =>
          refine (ih L p hnd' (hb.1 rfl)).iff ?_
          constructor
          · intro hl; exact ⟨hn, p, hpar, hl⟩
          · rintro ⟨_, m, hm, hl⟩
            rw [← uniq m hm]; exact hl
        | false =>
          refine OkP.pure ⟨nofun, ?_⟩ fun s hs => fresh_less (fun k hk => List.mem_append_right _ hk) s hs
          rintro ⟨_, m, hm, hl⟩
          have := satComplex_last hl
          rw [uniq m hm] at this
          exact absurd (hb.2 this) nofun
    | adj =>
      rw [matchChain]
      refine OkP.bind ((Ok.toP ((prevElement_ok H he n).both (prevElement_keeps (unused_closed d (leftKeys left ++ L)) n))).weaken drop) ?_
      rintro (_ | s) hs
      · refine OkP.pure ⟨nofun, ?_⟩ fun s hs => fresh_less (fun k hk => List.mem_append_right _ hk) s hs
        rintro ⟨_, m, hm, _⟩
        exact absurd ((hs m).2 hm) nofun
      · refine OkP.bind (hCP s) ?_
        intro b hb
        have uniq : ∀ m, Related h .adj m n → m = s := fun m hm => by
          have := (hs m).2 hm
          cases this
          rfl
        cases b with
        | true =>
          refine (ih L s hnd' (hb.1 rfl)).iff ?_
          constructor
          · intro hl; exact ⟨hn, s, (hs s).1 rfl, hl⟩
          · rintro ⟨_, m, hm, hl⟩
            rw [← uniq m hm]; exact hl
        | false =>
          refine OkP.pure ⟨nofun, ?_⟩ fun s hs => fresh_less (fun k hk => List.mem_append_right _ hk) s hs
          rintro ⟨_, m, hm, hl⟩
          have := satComplex_last hl
          rw [uniq m hm] at this
          exact absurd (hb.2 this) nofun
    | sib =>
      rw [matchChain]
      refine OkP.bind ((Ok.toP ((prevMatching_ok H he inner d left.last hL.reg hk hL.low hCL n).both
        (prevMatching_keeps (unused_closed d (leftKeys left ++ L)) inner d left.last (fun m => matchCompound_keeps (unused_closed d _) inner (hin _) m _) n))).weaken drop) ?_
      rintro (_ | a) hr
      · refine OkP.pure ⟨nofun, ?_⟩ fun s hs => fresh_less (fun k hk => List.mem_append_right _ hk) s hs
        rintro ⟨_, m, hm, hl⟩
        exact absurd (satComplex_last hl) (hr m hm)
      · obtain ⟨h1, h2, h3⟩ := hr
        refine (ih L a hnd' h2).iff ?_
        constructor
        · intro hl; exact ⟨hn, a, h1, hl⟩
        · rintro ⟨_, m, hm, hl⟩
          rcases h3 m hm (satComplex_last hl) with rfl | h4
          · exact hl
          · exact satComplex_move H.forest hp.2 hl h2 (.inr ⟨rfl, h4⟩)

/-- The keys of the parts to the left, in all selectors of a list. -/
def selKeys (l : Sel) : List Nat := l.flatMap leftKeys

theorem OkP.step {I J : SCtx → Prop} {Q : α → Prop} {k : SM α} (hs : Steps I) (he : E .steps) (hk : OkP I J k Q E) : OkP I J (do tick; work1; k) Q E := by
  intro c hi
  by_cases h0 : c.steps = 0
  · have : (do tick; work1; k : SM α) c = (.error .steps, c) := by simp [bind_run, tick, h0]
    rw [this]
    exact ⟨nofun, fun _ e => by cases e; exact he⟩
  · have : (do tick; work1; k : SM α) c = k { c with steps := c.steps - 1, work := c.work + 1 } := by simp [bind_run, tick, work1, h0]
    rw [this]
    exact hk _ (hs c hi h0)

theorem matchSel_fresh (H : SelHeap h) (he : Budget E) (hk : KeyInj S) (d : Nat) (sel : Sel) (hpart : ∀ C ∈ selParts sel, PartOk U S E C)
    (hd : selNest sel < d + 1 ∨ E .depth) (hp : ∀ x ∈ sel, plainInside U (unquoteArg U) h x ∧ forwardChain x) (hnd : (selKeys sel).Nodup) (n : Nat) :
    OkP (Fresh U h S d (selKeys sel)) (fun _ => True) (matchSel U h (d + 1) sel n) (fun b => b = true ↔ satSel U (unquoteArg U) h sel n) E := by
  have hin : ∀ L s n, Keeps (Unused d L) (matchSel U h d s n) := fun L s n => matchSel_keeps (unused_closed d L) d (Nat.le_refl _) s n
  have one : ∀ x ∈ sel, ∀ L, (leftKeys x ++ L).Nodup → OkP (Fresh U h S d (leftKeys x ++ L)) (Fresh U h S d L) (matchComplex U h (matchSel U h d) d x n)
      (fun b => b = true ↔ satComplex U (unquoteArg U) h x n) E := by
    intro x hx L hL
    have hpx : ∀ C ∈ complexParts x, PartOk U S E C := fun C hC => hpart C (selParts_mem hx C hC)
    have hch := chainOk_of H he (matchSel U h d) d (matchSel_exact H he hk d (Nat.le_refl _)) x (hp x hx).1 hpx
      (hd.imp (fun h' => by have := selNest_mem hx; omega) id)
    refine OkP.bind (Ok.toP ((chainOk_last hch n).both (matchCompound_keeps (unused_closed d _) _ (hin _) n _))) ?_
    intro b hb
    cases b with
    | true => exact matchChain_fresh H he hk _ d hin x hch (hp x hx).2 hpx L n hL (hb.1 rfl)
    | false => exact OkP.pure ⟨nofun, fun hP => absurd (hb.2 (satComplex_last hP)) nofun⟩ fun s hs => fresh_less (fun k hk => List.mem_append_right _ hk) s hs
  have any : ∀ l : Sel, (∀ x ∈ l, x ∈ sel) → (selKeys l).Nodup → OkP (Fresh U h S d (selKeys l)) (fun _ => True) (matchAny U h (matchSel U h d) d n l)
      (fun b => b = true ↔ ∃ x ∈ l, satComplex U (unquoteArg U) h x n) E := by
    intro l
    induction l with
    | nil => intro _ _; exact OkP.pure (by simp) fun _ _ => trivial
    | cons x l ih =>
      intro hl hndl
      have e : selKeys (x :: l) = leftKeys x ++ selKeys l := rfl
      rw [e] at hndl ⊢
      refine OkP.step (fresh_steps d _) he.steps ?_
      refine OkP.bind (one x (hl x (by simp)) (selKeys l) hndl) ?_
      intro b hb
      cases b with
      | true => exact OkP.pure ⟨fun _ => ⟨x, by simp, hb.1 rfl⟩, fun _ => rfl⟩ fun _ _ => trivial
      | false =>
        refine (ih (fun y hy => hl y (by simp [hy])) (List.nodup_append.1 hndl).2.1).iff ?_
        constructor
        · rintro ⟨y, hy, hP⟩; exact ⟨y, by simp [hy], hP⟩
        · rintro ⟨y, hy, hP⟩
          rcases List.mem_cons.1 hy with rfl | hy
          · exact absurd (hb.2 hP) nofun
          · exact ⟨y, hy, hP⟩
  rw [matchSel_shape]
  refine OkP.step (fresh_steps d _) he.steps ?_
  match sel, one, any, hnd with
  | [], _, any, hnd => exact (any [] (by simp) hnd).iff satSel_iff.symm
  | [x], one, _, hnd =>
    have e : selKeys [x] = leftKeys x ++ [] := rfl
    have := one x (by simp) [] (by rw [← e]; exact hnd)
    rw [e]
    intro c hc
    exact ⟨fun a ha => ⟨trivial, ((this c hc).1 a ha).2.trans (by simp [satSel])⟩, (this c hc).2⟩
  | x :: y :: l, _, any, hnd => exact (any _ (fun _ => id) hnd).iff satSel_iff.symm

end JH
