import Verif.Lemmas.SelLeaf
/-! The search for ancestors and siblings, and chains of combinators. -/
namespace JH
open Spec

variable {U : Uni} {h : Heap} {S : Compound → Prop} {D : Nat} {sat : Compound → Nat → Prop} {E : SErr → Prop}

/-- Different registered compounds have different keys. -/
def KeyInj (S : Compound → Prop) : Prop := ∀ C D, S C → S D → C.key = D.key → C = D

/-! ### Ancestors -/

theorem above_iff {a b : Nat} : Above h a b ↔ ∃ p, (h.obj b).parent = some p ∧ (a = p ∨ Above h a p) := by
  constructor
  · intro ha
    cases ha with
    | parent h1 => exact ⟨_, h1, .inl rfl⟩
    | up h1 h2 => exact ⟨_, h1, .inr h2⟩
  · rintro ⟨p, h1, rfl | h2⟩
    · exact .parent h1
    · exact .up h1 h2

/-- The ancestors of `m` that satisfy `P` are at `cur` or above. -/
def UpTo (h : Heap) (P : Nat → Prop) (m : Nat) (cur : Option Nat) : Prop :=
  ∀ b, P b → (Above h b m ↔ ∃ a, cur = some a ∧ (b = a ∨ Above h b a))

theorem upTo_start (P : Nat → Prop) (n : Nat) : UpTo h P n (h.obj n).parent := fun _ _ => above_iff

theorem upTo_step {P : Nat → Prop} {m a : Nat} (hu : UpTo h P m (some a)) (ha : ¬ P a) : UpTo h P m (h.obj a).parent := by
  intro b hb
  rw [hu b hb]
  constructor
  · rintro ⟨a', e, h1 | h1⟩
    · cases e; subst h1; exact absurd hb ha
    · cases e; exact above_iff.1 h1
  · intro hx
    exact ⟨a, rfl, .inr (above_iff.2 hx)⟩

theorem upTo_none {P : Nat → Prop} {m : Nat} (hu : UpTo h P m none) : Closest h P m none := by
  intro b hb hP
  obtain ⟨a, e, _⟩ := (hu b hP).1 hb
  cases e

theorem upTo_hit {P : Nat → Prop} {m a : Nat} (hu : UpTo h P m (some a)) (ha : P a) : Closest h P m (some a) := by
  refine ⟨(hu a ha).2 ⟨a, rfl, .inl rfl⟩, ha, ?_⟩
  intro b hb hP
  obtain ⟨a', e, h1⟩ := (hu b hP).1 hb
  cases e
  exact h1

theorem closest_self {P : Nat → Prop} {a : Nat} (hP : ¬ P a) {m : Nat} (hu : UpTo h P m (some a)) {r : Option Nat} (hr : Closest h P a r) : Closest h P m r := by
  cases r with
  | none =>
    intro b hb hPb
    obtain ⟨a', e, h1 | h1⟩ := (hu b hPb).1 hb
    · cases e; subst h1; exact hP hPb
    · cases e; exact hr b h1 hPb
  | some c =>
    obtain ⟨h1, h2, h3⟩ := hr
    refine ⟨(hu c h2).2 ⟨a, rfl, .inr h1⟩, h2, ?_⟩
    intro b hb hPb
    obtain ⟨a', e, h4 | h4⟩ := (hu b hPb).1 hb
    · cases e; subst h4; exact absurd hPb hP
    · cases e; exact h3 b h4 hPb

/-- What the search returns: a right ancestor of everything passed, the closest one where `t` holds; nothing on the path satisfies `P`. -/
def Found (h : Heap) (t : Prop) (P : Nat → Prop) (n : Nat) (r : Option Nat × List Nat) : Prop :=
  (∀ m, m = n ∨ m ∈ r.2 → (∀ a, r.1 = some a → Above h a m ∧ P a) ∧ (t → Closest h P m r.1)) ∧ ∀ m ∈ r.2, ¬ P m

theorem ancLoop_ok (H : SelHeap h) (hs : E .steps) {J : SCtx → Prop} (hJ : Steps J) (inner : Sel → Nat → SM Bool) (d : Nat) (C : Compound) (t : Prop)
    (hC : ∀ n, Ok J (matchCompound U h inner n C) (fun b => b = true ↔ sat C n) E)
    (hget : ∀ c, J c → ∀ n r, c.anc C.key d n = some r → AncOk h t (sat C) n r) (n : Nat) :
    ∀ f visited path cur, (∀ m, m = n ∨ m ∈ path → UpTo h (sat C) m cur) → (∀ m ∈ path, ¬ sat C m) → (∀ a, cur = some a → ∀ v ∈ visited, Above h a v) →
      (∀ m, m = n ∨ m ∈ path → m ∈ visited) →
      Ok J (ancLoop U h inner d C f visited path cur) (Found h t (sat C) n) E := by
  intro f
  induction f with
  | zero => intro visited path cur _ _ _ _; exact Ok.fail hs
  | succ f ih =>
    intro visited path cur hup hnp hvis hsub
    cases cur with
    | none => exact Ok.pure ⟨fun m hm => ⟨nofun, fun _ => upTo_none (hup m hm)⟩, hnp⟩
    | some a =>
      refine Ok.step hJ hs ?_
      have hnv : visited.contains a = false := by
        rw [← Bool.not_eq_true, List.contains_iff_mem]
        intro hm
        exact H.forest.acyclicUp a (hvis a rfl a hm)
      simp only [hnv, Bool.false_eq_true, if_false]
      refine Ok.bind (Q := fun r => ∀ x, r = some x → AncOk h t (sat C) a x) (Ok.get fun c hc x hx => hget c hc a x hx) ?_
      rintro (_ | x) hx
      · refine Ok.bind (hC a) ?_
        intro b hb
        cases b with
        | true =>
          refine Ok.pure ⟨fun m hm => ?_, hnp⟩
          have := upTo_hit (hup m hm) (hb.1 rfl)
          exact ⟨fun a' e => by cases e; exact ⟨this.1, this.2.1⟩, fun _ => this⟩
        | false =>
          have hna : ¬ sat C a := fun hs => absurd (hb.2 hs) nofun
          refine ih (a :: visited) (path ++ [a]) (h.obj a).parent ?_ ?_ ?_ ?_
          · intro m hm
            by_cases hma : m = n ∨ m ∈ path
            · exact upTo_step (hup m hma) hna
            · have : m = a := by
                rcases hm with hm | hm
                · exact absurd (.inl hm) hma
                · rcases List.mem_append.1 hm with hm | hm
                  · exact absurd (.inr hm) hma
                  · exact List.mem_singleton.1 hm
              rw [this]
              exact upTo_start _ _
          · intro m hm
            rcases List.mem_append.1 hm with hm | hm
            · exact hnp m hm
            · rw [List.mem_singleton.1 hm]; exact hna
          · intro p hp v hv
            rcases List.mem_cons.1 hv with rfl | hv
            · exact .parent hp
            · exact above_trans (.parent hp) (hvis a rfl v hv)
          · intro m hm
            rcases hm with hm | hm
            · exact List.mem_cons_of_mem _ (hsub m (.inl hm))
            · rcases List.mem_append.1 hm with hm | hm
              · exact List.mem_cons_of_mem _ (hsub m (.inr hm))
              · rw [List.mem_singleton.1 hm]; simp
      · have hx := hx x rfl
        refine Ok.pure ⟨fun m hm => ⟨?_, ?_⟩, hnp⟩
        · intro b hb
          have := hx.1 b hb
          exact ⟨((hup m hm) b this.2).2 ⟨a, rfl, .inr this.1⟩, this.2⟩
        · intro ht
          exact closest_self (hx.2 ht).2 (hup m hm) (hx.2 ht).1

theorem closestAnc_ok (H : SelHeap h) (he : Budget E) (inner : Sel → Nat → SM Bool) (d : Nat) (C : Compound) (hS : S C) (hk : KeyInj S)
    (hC : ∀ n, Ok (SelInv U h S D sat) (matchCompound U h inner n C) (fun b => b = true ↔ sat C n) E) (n : Nat) (hn : d < D → ¬ sat C n) :
    Ok (SelInv U h S D sat) (closestAnc U h inner d C n) (fun r => (∀ a, r = some a → Above h a n ∧ sat C a) ∧ (d < D → Closest h (sat C) n r)) E := by
  unfold closestAnc
  refine Ok.bind (Q := fun r => ∀ x, r = some x → AncOk h (d < D) (sat C) n x) (Ok.get fun c hc x hx => hc.anc C hS d n x hx) ?_
  rintro (_ | x) hx
  · refine Ok.bind (Q := fun _ => True) (Ok.get fun _ _ => trivial) ?_
    intro s _
    refine Ok.bind (ancLoop_ok H he.steps selInv_steps inner d C (d < D) hC (fun c hc => hc.anc C hS d) n (s + 1) [n] [] (h.obj n).parent
      (fun m hm => by rcases hm with rfl | hm; exact upTo_start _ _; cases hm) (by simp)
      (fun a ha v hv => by rw [List.mem_singleton.1 hv]; exact .parent ha) (fun m hm => by rcases hm with rfl | hm; simp; cases hm)) ?_
    rintro r ⟨h1, h2⟩
    refine Ok.bind (Q := fun _ => True) (Ok.set ?_ trivial) fun _ _ => Ok.pure (h1 n (.inl rfl))
    intro c i
    refine ⟨i.parent, i.attrs, i.nth, i.text, ?_, i.prev⟩
    intro C' hS' e m r' hr
    dsimp only at hr
    by_cases hm : C'.key = C.key ∧ e = d ∧ (m = n ∨ m ∈ r.2)
    · rw [if_pos hm] at hr
      cases hr
      obtain ⟨h3, h4, h5⟩ := hm
      have := hk C' C hS' hS h3
      subst this h4
      refine ⟨(h1 m h5).1, fun ht => ⟨(h1 m h5).2 ht, ?_⟩⟩
      rcases h5 with rfl | h5
      · exact hn ht
      · exact h2 m h5
    · rw [if_neg hm] at hr
      exact i.anc C' hS' e m r' hr
  · exact Ok.pure ⟨(hx x rfl).1, fun ht => ((hx x rfl).2 ht).1⟩

/-! ### Earlier siblings -/

theorem prevElement_ok (H : SelHeap h) (he : Budget E) (n : Nat) :
    Ok (SelInv U h S D sat) (prevElement U h n) (fun r => ∀ m, r = some m ↔ Related h .adj m n) E := by
  have key : ∀ p, (h.obj n).parent = some p → ∀ m, (if n ∈ h.kids p then ((sibsBefore (h.kids p) n).filter fun x => decide (Elem h x)).getLast? else none) = some m ↔
      Related h .adj m n := by
    intro p hp m
    constructor
    · intro e
      by_cases hm : n ∈ h.kids p
      · rw [if_pos hm] at e
        obtain ⟨l, hl, hm⟩ := some_kids hm
        rw [kids_some hl] at e
        obtain ⟨b, hb, _⟩ := split_mem hm
        have hnd : (sibsBefore l n).Nodup := (H.forest.once p l hl).sublist (List.takeWhile_sublist _)
        have hx := (last_filter hnd (Elem h) m).1 e
        obtain ⟨hm1, hE, hlast⟩ := hx
        obtain ⟨a2, ha2, _⟩ := split_mem hm1
        generalize sibsBefore (sibsBefore l n) m = a1 at ha2
        refine ⟨hE, p, a1, a2, b, ?_, ?_⟩
        · rw [hl, ← ha2, ← hb]
        · intro x hx
          have hxm : x ∈ sibsBefore l n := by rw [ha2]; simp [hx]
          refine hlast x hxm ?_
          rw [ha2] at hnd ⊢
          exact (mem_before hnd (by simp [hx])).2 hx
      · rw [if_neg hm] at e; cases e
    · rintro ⟨hE, q, a, b, c, hl, hb⟩
      have := H.forest.back q _ n hl (by simp)
      rw [hp] at this
      cases this
      have hnd := H.forest.once p _ hl
      rw [kids_some hl]
      rw [if_pos (by simp)]
      have hna : n ∉ a ++ m :: b := by
        rw [List.nodup_append] at hnd
        intro hm
        exact hnd.2.2 n hm n (by simp) rfl
      rw [sibsBefore_split hna, List.filter_append, List.filter_cons_of_pos (by simpa using hE)]
      have : b.filter (fun x => decide (Elem h x)) = [] := by
        rw [List.filter_eq_nil_iff]; intro x hx; simpa using hb x hx
      rw [this]; simp
  unfold prevElement
  cases hp : (h.obj n).parent with
  | none =>
    refine Ok.pure fun m => ⟨nofun, ?_⟩
    rintro ⟨_, q, a, b, c, hl, _⟩
    have := H.forest.back q _ n hl (by simp)
    rw [hp] at this
    cases this
  | some p =>
    refine Ok.bind (parentData_ok he p) ?_
    rintro d rfl
    refine Ok.pure fun m => ?_
    rw [(facts H p).prevSib]
    exact key p hp m

theorem lastBefore_snoc (P : Nat → Prop) {l : List Nat} {x : Nat} (hx : x ∉ l) (n : Nat) :
    lastBefore h P (l ++ [x]) n = if n = x then (l.filter (hit h P)).getLast? else lastBefore h P l n := by
  unfold lastBefore
  by_cases hn : n = x
  · subst hn
    rw [if_pos rfl, if_pos (by simp), sibsBefore_snoc_new hx]
  · rw [if_neg hn]
    by_cases hm : n ∈ l
    · rw [if_pos (by simp [hm]), if_pos hm, sibsBefore_snoc_mem hm]
    · rw [if_neg (by simp [hm, hn]), if_neg hm]

theorem prevLoop_ok (he : E .steps) {J : SCtx → Prop} (hJ : Steps J) (inner : Sel → Nat → SM Bool) (C : Compound)
    (hC : ∀ n, Ok J (matchCompound U h inner n C) (fun b => b = true ↔ sat C n) E) : ∀ r l, (l ++ r).Nodup → ∀ m,
      (∀ n, m n = lastBefore h (sat C) l n) →
      Ok J (prevLoop U h inner C m (l.filter (hit h (sat C))).getLast? r)
        (fun m => ∀ n, m n = lastBefore h (sat C) (l ++ r) n) E := by
  intro r
  induction r with
  | nil => intro l _ m hm; rw [List.append_nil]; exact Ok.pure hm
  | cons x r ih =>
    intro l hnd m hm
    have hx : x ∉ l := by
      rw [List.nodup_append] at hnd
      intro hxl
      exact hnd.2.2 x hxl x (by simp) rfl
    have hm' : ∀ n, fput m x (l.filter (hit h (sat C))).getLast? n = lastBefore h (sat C) (l ++ [x]) n := by
      intro n
      rw [lastBefore_snoc _ hx, fput, hm]
    have e : l ++ x :: r = (l ++ [x]) ++ r := by simp
    have hnd' : ((l ++ [x]) ++ r).Nodup := by rw [← e]; exact hnd
    have ih := ih (l ++ [x]) hnd' _ hm'
    rw [e]
    refine Ok.step hJ he ?_
    dsimp only
    rw [filter_snoc] at ih
    by_cases hh : isHash (h.obj x).name = true
    · rw [if_pos hh]
      have hE := (isHash_iff h x).1 hh
      rw [if_neg (by rw [hit_iff]; exact fun hx => hE hx.1)] at ih
      exact ih
    · rw [if_neg hh]
      have hE := (isHash_false h x).1 (Bool.eq_false_iff.2 hh)
      refine Ok.bind (hC x) ?_
      intro b hb
      cases b with
      | true =>
        rw [if_pos (hit_iff.2 ⟨hE, hb.1 rfl⟩)] at ih
        simpa using ih
      | false =>
        have hs : ¬ sat C x := fun hs => absurd (hb.2 hs) nofun
        rw [if_neg (by rw [hit_iff]; exact fun hx => hs hx.2)] at ih
        exact ih

theorem prevCached_ok (H : SelHeap h) (he : Budget E) (inner : Sel → Nat → SM Bool) (d : Nat) (C : Compound) (hS : S C) (hk : KeyInj S)
    (hC : ∀ n, Ok (SelInv U h S D sat) (matchCompound U h inner n C) (fun b => b = true ↔ sat C n) E) (n p : Nat) :
    Ok (SelInv U h S D sat) (prevCached U h inner d C n p) (fun r => r = lastBefore h (sat C) (h.kids p) n) E := by
  unfold prevCached
  refine Ok.bind (Q := fun r => ∀ m, r = some m → ∀ n, m n = lastBefore h (sat C) (h.kids p) n) (Ok.get fun c hc m hm => hc.prev C hS p d m hm) ?_
  rintro (_ | m) hm
  · have := prevLoop_ok (sat := sat) (U := U) he.steps selInv_steps inner C hC (h.kids p) [] (by simpa using forest_nodup H.forest p) (fun _ => none)
      (fun n => by simp [lastBefore])
    refine Ok.bind this ?_
    intro m hm
    refine Ok.bind (Q := fun _ => True) (Ok.set ?_ trivial) fun _ _ => Ok.pure (hm n)
    intro c i
    refine ⟨i.parent, i.attrs, i.nth, i.text, i.anc, ?_⟩
    intro C' hS' q e m' hm'
    dsimp only at hm'
    by_cases hq : q = p ∧ C'.key = C.key ∧ e = d
    · rw [if_pos hq] at hm'
      cases hm'
      obtain ⟨h1, h2, h3⟩ := hq
      have := hk C' C hS' hS h2
      subst this h1
      exact hm
    · rw [if_neg hq] at hm'
      exact i.prev C' hS' q e m' hm'
  · exact Ok.pure (hm m rfl n)

/-- What a lookup among earlier siblings finds. -/
def Previous (h : Heap) (P : Nat → Prop) (n : Nat) : Option Nat → Prop
  | none => ∀ b, Related h .sib b n → ¬ P b
  | some a => Related h .sib a n ∧ P a ∧ ∀ b, Related h .sib b n → P b → b = a ∨ Related h .sib b a

theorem lastBefore_previous (H : SelHeap h) (P : Nat → Prop) {n p : Nat} (hp : (h.obj n).parent = some p) : Previous h P n (lastBefore h P (h.kids p) n) := by
  unfold lastBefore
  by_cases hm : n ∈ h.kids p
  · rw [if_pos hm]
    have hnd : (sibsBefore (h.kids p) n).Nodup := (forest_nodup H.forest p).sublist (List.takeWhile_sublist _)
    cases hl : ((sibsBefore (h.kids p) n).filter (hit h P)).getLast? with
    | none =>
      rw [List.getLast?_eq_none_iff] at hl
      rintro b ⟨hE, hb⟩ hP
      have := ((earlier_iff H.forest hp).1 hb).2
      exact List.filter_eq_nil_iff.1 hl b this (hit_iff.2 ⟨hE, hP⟩)
    | some a =>
      obtain ⟨h1, ⟨h2, h3⟩, h4⟩ := (@last_filter _ hnd (fun x => Elem h x ∧ P x) (fun _ => Classical.propDecidable _) a).1 hl
      refine ⟨⟨h2, (earlier_iff H.forest hp).2 ⟨hm, h1⟩⟩, h3, ?_⟩
      rintro b ⟨hE, hb⟩ hP
      have hbm := ((earlier_iff H.forest hp).1 hb).2
      by_cases hab : b = a
      · exact .inl hab
      · refine .inr ⟨hE, ?_⟩
        have hna : ¬ a ∈ sibsBefore (sibsBefore (h.kids p) n) b := fun hx => h4 b hbm hx ⟨hE, hP⟩
        have hpa : (h.obj a).parent = some p := forest_par H.forest (before_mem h1)
        rw [earlier_iff H.forest hpa]
        refine ⟨before_mem h1, ?_⟩
        obtain ⟨c, hc, _⟩ := split_mem hm
        obtain ⟨a2, ha2, haa⟩ := split_mem h1
        generalize sibsBefore (sibsBefore (h.kids p) n) a = a1 at ha2 haa
        generalize sibsBefore (h.kids p) n = s at *
        subst ha2
        rw [mem_before hnd hbm] at hna
        rw [hc, List.append_assoc, List.cons_append, sibsBefore_split haa]
        rcases List.mem_append.1 hbm with hb1 | hb1
        · exact hb1
        · rcases List.mem_cons.1 hb1 with hb1 | hb1
          · exact absurd hb1 hab
          · exact absurd hb1 hna
  · rw [if_neg hm]
    rintro b ⟨_, hb⟩ _
    exact hm ((earlier_iff H.forest hp).1 hb).1

theorem compoundTag_mem {l : List Simple} {t : Str} (hl : compoundTag l = some t) : Simple.tag t ∈ l := by
  induction l with
  | nil => cases hl
  | cons s l ih =>
    cases s with
    | tag u =>
      rw [compoundTag] at hl
      by_cases hu : u = []
      · rw [if_pos hu] at hl; exact List.mem_cons_of_mem _ (ih hl)
      · rw [if_neg hu] at hl; cases hl; simp
    | _ => exact List.mem_cons_of_mem _ (ih (by simpa [compoundTag] using hl))

theorem satSimples_mem {unq : Str → Str} {l : List Simple} {n : Nat} (hl : satSimples U unq h l n) : ∀ s ∈ l, satSimple U unq h s n := by
  induction l with
  | nil => nofun
  | cons s l ih =>
    rw [satSimples] at hl
    intro s' hs
    rcases List.mem_cons.1 hs with rfl | hs
    · exact hl.1
    · exact ih hl.2 s' hs

theorem childNames_ok (H : SelHeap h) (he : Budget E) (p : Nat) :
    Ok (SelInv U h S D sat) (childNames U h p) (fun l => l = ((h.kids p).filter fun x => decide (Elem h x)).map fun x => U.lower (h.obj x).name) E := by
  unfold childNames
  by_cases h0 : h.kids p = []
  · rw [if_pos h0]; exact Ok.pure (by rw [h0]; rfl)
  · rw [if_neg h0]
    refine Ok.bind (parentData_ok he p) ?_
    rintro d rfl
    exact Ok.pure (facts H p).names

/-- The meaning that is used from here on. -/
def meaning (U : Uni) (h : Heap) : Compound → Nat → Prop := satCompound U (unquoteArg U) h

theorem prevMatching_ok (H : SelHeap h) (he : Budget E) (inner : Sel → Nat → SM Bool) (d : Nat) (C : Compound) (hS : S C) (hk : KeyInj S)
    (hlow : ∀ t, Simple.tag t ∈ C.simples → U.lower t = t)
    (hC : ∀ n, Ok (SelInv U h S D (meaning U h)) (matchCompound U h inner n C) (fun b => b = true ↔ meaning U h C n) E) (n : Nat) :
    Ok (SelInv U h S D (meaning U h)) (prevMatching U h inner d C n) (Previous h (meaning U h C) n) E := by
  unfold prevMatching
  cases hp : (h.obj n).parent with
  | none =>
    refine Ok.pure ?_
    rintro b ⟨_, hb⟩ _
    obtain ⟨p, hp', _⟩ := earlier_parent H.forest hb
    rw [hp] at hp'
    cases hp'
  | some p =>
    have hpc : Ok (SelInv U h S D (meaning U h)) (prevCached U h inner d C n p) (Previous h (meaning U h C) n) E :=
      (prevCached_ok H he inner d C hS hk hC n p).mono fun r hr => by rw [hr]; exact lastBefore_previous H _ hp
    dsimp only
    cases ht : compoundTag C.simples with
    | none => exact hpc
    | some t =>
      refine Ok.bind (childNames_ok H he p) ?_
      rintro names rfl
      by_cases hc : ((((h.kids p).filter fun x => decide (Elem h x)).map fun x => U.lower (h.obj x).name).contains t) = true
      · rw [if_pos hc]; exact hpc
      · rw [if_neg hc]
        refine Ok.pure ?_
        rintro b ⟨hE, hb⟩ hP
        obtain ⟨k, l⟩ := C
        have hmem := compoundTag_mem ht
        have hs := satSimples_mem (by unfold meaning satCompound at hP; exact hP) _ hmem
        rw [satSimple] at hs
        have hn : U.lower (h.obj b).name = t := by
          rcases hs.2 with h1 | h1
          · rw [h1]; exact hlow t hmem
          · exact h1
        refine hc (List.contains_iff_mem.2 (List.mem_map.2 ⟨b, List.mem_filter.2 ⟨?_, by simpa using hE⟩, hn⟩))
        exact before_mem ((earlier_iff H.forest hp).1 hb).2

end JH
