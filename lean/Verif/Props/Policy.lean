import Verif.Model.Policy
import Verif.Spec.Policy
import Verif.Lemmas.Py

/-! C36, C37, C38, C54. -/
namespace JH
open Spec

/-! ### C37 -/

theorem errLe_trans (a b c : PErr × Nat) : errLe a b = true → errLe b c = true → errLe a c = true := by
  unfold errLe
  generalize posKey a.1.line = al
  generalize posKey b.1.line = bl
  generalize posKey c.1.line = cl
  generalize posKey a.1.col = ac
  generalize posKey b.1.col = bc
  generalize posKey c.1.col = cc
  intro h1 h2
  repeat' split at h1
  all_goals repeat' split at h2
  all_goals repeat' split
  all_goals simp only [decide_eq_true_eq] at *
  all_goals omega

theorem errLe_total (a b : PErr × Nat) : (errLe a b || errLe b a) = true := by
  unfold errLe
  generalize posKey a.1.line = al
  generalize posKey b.1.line = bl
  generalize posKey a.1.col = ac
  generalize posKey b.1.col = bc
  rw [Bool.or_eq_true]
  repeat' split
  all_goals simp only [decide_eq_true_eq] at *
  all_goals omega

theorem filter_zipIdx (p : PErr → Bool) (l : List PErr) (k : Nat) :
    ((l.zipIdx k).filter fun x => p x.1).map Prod.fst = l.filter p := by
  induction l generalizing k with
  | nil => rfl
  | cons e l ih =>
    rw [List.zipIdx_cons, List.filter_cons, List.filter_cons]
    split
    · rw [List.map_cons, ih]
    · exact ih _

theorem zipIdx_lt (l : List PErr) (k : Nat) : (l.zipIdx k).Pairwise fun a b => a.2 < b.2 := by
  induction l generalizing k with
  | nil => simp
  | cons e l ih =>
    rw [List.zipIdx_cons, List.pairwise_cons]
    refine ⟨?_, ih _⟩
    intro x hx
    have := List.le_snd_of_mem_zipIdx hx
    show k < x.2
    omega

theorem sortedErrors_spec (errors : List PErr) : SortedByPosition errors (sortedErrors errors) := by
  have hperm : (errors.zipIdx.mergeSort errLe).Perm errors.zipIdx := List.mergeSort_perm _ _
  have hsort : (errors.zipIdx.mergeSort errLe).Pairwise (fun a b => errLe a b = true) :=
    List.pairwise_mergeSort errLe_trans errLe_total _
  refine ⟨?_, ?_, ?_⟩
  · have := hperm.map Prod.fst
    rwa [show errors.zipIdx.map Prod.fst = errors by simp] at this
  · unfold sortedErrors
    rw [List.pairwise_map]
    refine hsort.imp ?_
    intro a b h
    unfold errLe at h
    show posKey a.1.line < posKey b.1.line ∨ (posKey a.1.line = posKey b.1.line ∧ posKey a.1.col ≤ posKey b.1.col)
    generalize posKey a.1.line = al at h ⊢
    generalize posKey b.1.line = bl at h ⊢
    generalize posKey a.1.col = ac at h ⊢
    generalize posKey b.1.col = bc at h ⊢
    by_cases h1 : al = bl
    · rw [if_neg (by simpa using h1)] at h
      by_cases h2 : ac = bc
      · omega
      · rw [if_pos h2] at h
        simp only [decide_eq_true_eq] at h
        omega
    · rw [if_pos h1] at h
      simp only [decide_eq_true_eq] at h
      omega
  · intro k
    have e : (errors.zipIdx.mergeSort errLe).filter (fun x => pos x.1 = k) = errors.zipIdx.filter (fun x => pos x.1 = k) := by
      apply List.Perm.eq_of_pairwise (le := fun a b => errLe a b = true)
      · intro a b ha hb h1 h2
        have ha' := (List.mem_filter.mp ha)
        have hb' := (List.mem_filter.mp hb)
        have hka : pos a.1 = k := by simpa using ha'.2
        have hkb : pos b.1 = k := by simpa using hb'.2
        have hp : posKey a.1.line = posKey b.1.line ∧ posKey a.1.col = posKey b.1.col := by
          rw [← hkb] at hka
          simp only [pos, Prod.mk.injEq] at hka
          exact hka
        unfold errLe at h1 h2
        simp only [hp.1, hp.2, ne_eq, not_true_eq_false, if_false, decide_eq_true_eq] at h1 h2
        have hidx : a.2 = b.2 := Nat.le_antisymm h1 h2
        have ham : a ∈ errors.zipIdx := hperm.subset ha'.1
        have hbm : b ∈ errors.zipIdx := hb'.1
        obtain ⟨a1, a2⟩ := a
        obtain ⟨b1, b2⟩ := b
        simp only at hidx
        subst hidx
        have h3 := (List.mk_mem_zipIdx_iff_getElem?.mp ham)
        have h4 := (List.mk_mem_zipIdx_iff_getElem?.mp hbm)
        rw [h3] at h4
        simp at h4
        rw [h4]
      · exact hsort.filter _
      · have hz := (zipIdx_lt errors 0).filter (fun x => decide (pos x.1 = k))
        refine List.Pairwise.imp_of_mem ?_ hz
        intro a b ha hb h
        have hka : pos a.1 = k := by simpa using (List.mem_filter.mp ha).2
        have hkb : pos b.1 = k := by simpa using (List.mem_filter.mp hb).2
        have hp : posKey a.1.line = posKey b.1.line ∧ posKey a.1.col = posKey b.1.col := by
          rw [← hkb] at hka
          simp only [pos, Prod.mk.injEq] at hka
          exact hka
        unfold errLe
        simp only [hp.1, hp.2, ne_eq, not_true_eq_false, if_false, decide_eq_true_eq]
        omega
      · exact hperm.filter _
    unfold sortedErrors
    rw [List.filter_map]
    have e' : (errors.zipIdx.mergeSort errLe).filter ((fun x => decide (pos x = k)) ∘ Prod.fst) =
        errors.zipIdx.filter (fun x => pos x.1 = k) := e
    rw [e', filter_zipIdx (fun x => decide (pos x = k)) errors 0]

theorem bounded_fold (m : Nat) (es acc : List PErr) (h : acc.length ≤ m) :
    es.foldl (boundedAppend m) acc = (acc ++ es).take m := by
  induction es generalizing acc with
  | nil => simp [List.take_of_length_le h]
  | cons e es ih =>
    rw [List.foldl_cons]
    by_cases h' : acc.length < m
    · rw [show boundedAppend m acc e = acc ++ [e] from if_pos h', ih _ (by simp; omega)]; simp
    · rw [show boundedAppend m acc e = acc from if_neg h']
      have : acc.length = m := by omega
      rw [ih acc h]
      rw [← this]; simp

theorem bounded_fold_nil (m : Nat) (es : List PErr) : es.foldl (boundedAppend m) [] = es.take m := by
  simpa using bounded_fold m es [] (by simp)

theorem take_append_take (m : Nat) (a b : List PErr) : a.take m ++ b.take (m - (a.take m).length) = (a ++ b).take m := by
  rw [List.take_append, List.length_take]
  congr 1
  congr 1
  omega

/-- C37: with error collection the document's errors are the first `max_errors` discovered (parse errors before transform
findings), sorted by position with ties in discovery order. -/
theorem C37_collect (safe : Bool) (max : Nat) (hmax : 1 ≤ max) (emitted found : List PErr) (hsafe : safe = true → found = []) :
    ∃ out, docErrors true false safe max emitted found = .ok out ∧ out.length ≤ max ∧
      SortedByPosition ((emitted ++ found).take max) out := by
  refine ⟨sortedErrors ((emitted ++ found).take max), ?_, ?_, sortedErrors_spec _⟩
  · unfold docErrors
    rw [if_neg (by omega)]
    simp only [Bool.or_false, if_true, bounded_fold_nil]
    cases safe with
    | false => simp only [Bool.false_eq_true, if_false, take_append_take]
    | true => simp [hsafe rfl]
  · rw [(sortedErrors_spec _).perm.length_eq, List.length_take]; omega

/-- C37: strict mode raises exactly when some error was discovered, and then with an error at the first position, the
earliest discovered there. -/
theorem C37_strict (collect safe : Bool) (max : Nat) (hmax : 1 ≤ max) (emitted found : List PErr) (hsafe : safe = true → found = []) :
    (emitted ++ found = [] ∧ docErrors collect true safe max emitted found = .ok []) ∨
    (∃ e rest, SortedByPosition ((emitted ++ found).take max) (e :: rest) ∧
      docErrors collect true safe max emitted found = .strictError e) := by
  have key : docErrors collect true safe max emitted found =
      match sortedErrors ((emitted ++ found).take max) with
      | e :: _ => .strictError e
      | [] => .ok [] := by
    unfold docErrors
    rw [if_neg (by omega)]
    simp only [Bool.or_true, if_true, bounded_fold_nil]
    have : (if safe = true then List.take max emitted else List.take max emitted ++
        if safe = true then [] else List.take (max - (List.take max emitted).length) found) = List.take max (emitted ++ found) := by
      cases safe with
      | false => simp only [Bool.false_eq_true, if_false, take_append_take]
      | true => simp [hsafe rfl]
    rw [this]
    cases sortedErrors ((emitted ++ found).take max) <;> rfl
  have hs := sortedErrors_spec ((emitted ++ found).take max)
  cases h : sortedErrors ((emitted ++ found).take max) with
  | nil =>
    left
    rw [h] at hs key
    have := hs.perm.symm.eq_nil
    refine ⟨?_, key⟩
    cases hx : emitted ++ found with
    | nil => rfl
    | cons a l =>
      rw [hx] at this
      cases max with
      | zero => omega
      | succ m => simp at this
  | cons e rest =>
    right
    rw [h] at hs key
    exact ⟨e, rest, hs, key⟩

/-- C37: without error collection nothing the parser reports is kept, findings of transforms are kept in order, bounded. -/
theorem C37_default (safe : Bool) (max : Nat) (hmax : 1 ≤ max) (emitted found : List PErr) (hsafe : safe = true → found = []) :
    docErrors false false safe max emitted found = .ok (found.take max) := by
  unfold docErrors
  rw [if_neg (by omega)]
  simp only [bounded_fold_nil]
  cases safe with
  | false => simp
  | true => simp [hsafe rfl]

/-- C37: `max_errors` below one is refused. -/
theorem C37_bad_max (collect strict safe : Bool) (emitted found : List PErr) :
    docErrors collect strict safe 0 emitted found = .valueError := by rfl

example : let e1 : PErr := ⟨[], some 2, some 1, false, []⟩
    let e2 : PErr := ⟨[], none, none, false, []⟩
    let e3 : PErr := ⟨[], some 1, some 5, true, []⟩
    sortedErrors [e1, e2, e3] = [e3, e1, e2] := by
  intro e1 e2 e3
  simp [sortedErrors, List.mergeSort, List.zipIdx, List.MergeSort.Internal.splitInTwo, List.merge, errLe, posKey, e1, e2, e3]

/-! ### C36 -/

theorem compactLoop_spec (done kept rest junk : List PErr) (hk : kept = done.filter (fun e => !e.security))
    (hl : kept.length + junk.length = done.length) :
    (compactLoop (kept ++ junk ++ rest).toArray done.length kept.length).toList = (done ++ rest).filter (fun e => !e.security) := by
  induction rest generalizing done kept junk with
  | nil =>
    unfold compactLoop
    rw [dif_neg (by simp; omega)]
    simp [hk]
  | cons e rest ih =>
    unfold compactLoop
    have hsz : done.length < (kept ++ junk ++ e :: rest).toArray.size := by simp; omega
    rw [dif_pos hsz]
    have hget : (kept ++ junk ++ e :: rest).toArray[done.length]'hsz = e := by
      rw [List.getElem_toArray]
      have : done.length = (kept ++ junk).length := by simp; omega
      simp only [this]
      simp
    simp only [hget]
    by_cases hs : e.security = true
    · rw [if_pos hs]
      have := ih (done ++ [e]) kept (junk ++ [e]) (by rw [List.filter_append, ← hk]; simp [hs]) (by simp; omega)
      simp only [List.length_append, List.length_cons, List.length_nil, Nat.zero_add] at this
      simpa using this
    · have hs' : e.security = false := by simpa using hs
      rw [if_neg hs]
      cases junk with
      | nil =>
        have hlen : kept.length = done.length := by simpa using hl
        have := ih (done ++ [e]) (kept ++ [e]) [] (by rw [List.filter_append, ← hk]; simp [hs']) (by simp; omega)
        simp only [List.length_append, List.length_cons, List.length_nil, Nat.zero_add] at this
        have hset : (kept ++ [] ++ e :: rest).toArray.setIfInBounds kept.length e = (kept ++ [e] ++ [] ++ rest).toArray := by
          simp
        rw [hset]
        simpa using this
      | cons j junk =>
        have := ih (done ++ [e]) (kept ++ [e]) (junk ++ [e]) (by rw [List.filter_append, ← hk]; simp [hs']) (by simp at hl ⊢; omega)
        simp only [List.length_append, List.length_cons, List.length_nil, Nat.zero_add] at this
        have hset : (kept ++ j :: junk ++ e :: rest).toArray.setIfInBounds kept.length e =
            (kept ++ [e] ++ (junk ++ [e]) ++ rest).toArray := by
          simp
        rw [hset]
        simpa using this

/-- C36: resetting a collecting handler removes exactly the security findings from the shared list, in place, keeping the
order of everything else. -/
theorem C36_reset_sink (s : List PErr) (errs : Option (List PErr)) :
    ({ mode := .collect, sink := some s, errs := errs } : Handler).reset =
      { mode := .collect, sink := some (s.filter fun e => !e.security), errs := errs } := by
  unfold Handler.reset
  have := compactLoop_spec [] [] s [] rfl rfl
  simp only [List.append_nil, List.nil_append, List.length_nil] at this
  simp [this]

/-- Report a list of findings, one after the other. -/
def handleAll (h : Handler) : List (Str × Option Nat × Option Nat) → Except Str Handler
  | [] => .ok h
  | (m, l, c) :: r => match h.handle m l c with
    | .ok h' => handleAll h' r
    | .error e => .error e

/-- C36: in strip mode nothing is raised or recorded. -/
theorem C36_strip (h : Handler) (hm : h.mode = .strip) (fs : List (Str × Option Nat × Option Nat)) : handleAll h fs = .ok h := by
  induction fs with
  | nil => rfl
  | cons f fs ih =>
    obtain ⟨m, l, c⟩ := f
    simp only [handleAll, Handler.handle, hm]
    exact ih

/-- C36: in raise mode the first finding raises, with its message. -/
theorem C36_raise (h : Handler) (hm : h.mode = .raise) (m : Str) (l c : Option Nat) (fs : List (Str × Option Nat × Option Nat)) :
    handleAll h ((m, l, c) :: fs) = .error m := by
  simp only [handleAll, Handler.handle, hm]

/-- C36: in collect mode, after a reset, any findings are recorded exactly once each; asking for them returns exactly these
findings sorted by position (ties in order), and a shared list keeps its other entries and gains the findings at its end in
order. -/
theorem C36_collect (h : Handler) (hm : h.mode = .collect) (fs : List (Str × Option Nat × Option Nat)) :
    ∃ h', handleAll h.reset fs = .ok h' ∧
      SortedByPosition (fs.map fun f => finding f.1 f.2.1 f.2.2) h'.collected ∧
      (∀ s, h.sink = some s → h'.sink = some (s.filter (fun e => !e.security) ++ fs.map fun f => finding f.1 f.2.1 f.2.2)) ∧
      (h.sink = none → h'.sink = none) := by
  obtain ⟨mode, sink, errs⟩ := h
  simp only at hm
  subst hm
  cases sink with
  | none =>
    have key : ∀ (fs : List (Str × Option Nat × Option Nat)) (acc : List PErr),
        handleAll { mode := .collect, sink := none, errs := some acc } fs =
          .ok { mode := .collect, sink := none, errs := some (acc ++ fs.map fun f => finding f.1 f.2.1 f.2.2) } := by
      intro fs
      induction fs with
      | nil => intro acc; simp [handleAll]
      | cons f fs ih =>
        intro acc
        obtain ⟨m, l, c⟩ := f
        simp only [handleAll, Handler.handle, Option.getD_some]
        rw [ih]
        simp
    refine ⟨_, key fs [], ?_, by simp, by simp⟩
    simp only [Handler.collected, Option.getD_some, List.nil_append]
    exact sortedErrors_spec _
  | some s =>
    rw [C36_reset_sink]
    have key : ∀ (fs : List (Str × Option Nat × Option Nat)) (acc : List PErr),
        handleAll { mode := .collect, sink := some acc, errs := errs } fs =
          .ok { mode := .collect, sink := some (acc ++ fs.map fun f => finding f.1 f.2.1 f.2.2), errs := errs } := by
      intro fs
      induction fs with
      | nil => intro acc; simp [handleAll]
      | cons f fs ih =>
        intro acc
        obtain ⟨m, l, c⟩ := f
        simp only [handleAll, Handler.handle]
        rw [ih]
        simp
    refine ⟨_, key fs _, ?_, ?_, by simp⟩
    · simp only [Handler.collected, List.filter_append]
      have h1 : (s.filter (fun e => !e.security)).filter (fun e => e.security) = [] := by
        rw [List.filter_filter]; simp
      have h2 : (fs.map fun f => finding f.1 f.2.1 f.2.2).filter (fun e => e.security) = fs.map fun f => finding f.1 f.2.1 f.2.2 := by
        rw [List.filter_eq_self]
        intro e he
        obtain ⟨f, -, rfl⟩ := List.mem_map.mp he
        rfl
      rw [h1, h2, List.nil_append]
      exact sortedErrors_spec _
    · intro s' hs'
      simp only [Option.some.injEq] at hs'
      rw [hs']

example : let e1 : PErr := ⟨[], some 2, some 1, false, []⟩
    let s : PErr := ⟨[], none, none, true, []⟩
    ({ mode := .collect, sink := some [s, e1, s], errs := none } : Handler).reset.sink = some [e1] := by
  intro e1 s
  rw [C36_reset_sink]; simp [s, e1]

/-! ### C54 -/

/-- C54: every stored name is the trimmed, lower-cased form of a configured name, none is empty, and every configured name
that is not blank is stored. -/
theorem C54_normalized (U : Uni) (vs : List Str) (n : Str) :
    n ∈ normSet U vs ↔ n ≠ [] ∧ ∃ v ∈ vs, n = U.lower (stripP U.isSpace v) := by
  unfold normSet normName
  rw [List.mem_filter, List.mem_map]
  constructor
  · rintro ⟨⟨v, hv, rfl⟩, h⟩
    exact ⟨by simpa using h, v, hv, rfl⟩
  · rintro ⟨h, v, hv, rfl⟩
    exact ⟨⟨v, hv, rfl⟩, by simpa using h⟩

/-- C54: normalizing is case-insensitive and ignores surrounding white space for ASCII names: two names that differ only in
ASCII case are stored as the same name. -/
theorem C54_case (U : Uni) (v w : Str) (hv : v.all isAscii = true) (hw : w.all isAscii = true) (h : lowerA v = lowerA w) :
    normName U v = normName U w := by
  have hsp : ∀ c d : Char, isAscii c = true → isAscii d = true → lowerC c = lowerC d → U.isSpace c = U.isSpace d := by
    have up : ∀ c : Char, isAscii c = true → U.isSpace (lowerC c) = U.isSpace c := by
      intro c hc
      unfold lowerC
      split
      · rename_i hu
        simp only [isUpperC, Bool.and_eq_true, decide_eq_true_eq] at hu
        have h65 : 'A'.toNat = 65 := rfl
        have h90 : 'Z'.toNat = 90 := rfl
        have hn : (Char.ofNat (c.toNat + 32)).toNat = c.toNat + 32 := toNat_ofNat (by omega)
        have ha : isAscii (Char.ofNat (c.toNat + 32)) = true := by simp [isAscii, hn]; omega
        rw [U.isSpace_ascii _ ha, U.isSpace_ascii _ hc, hn]
        have e1 : (Char.ofNat (c.toNat + 32) = ' ') = False := by
          simp only [eq_iff_iff, iff_false]
          intro e
          have := congrArg Char.toNat e
          rw [hn] at this
          have h32 : ' '.toNat = 32 := rfl
          omega
        have e2 : (c = ' ') = False := by
          simp only [eq_iff_iff, iff_false]
          rintro rfl
          have h32 : ' '.toNat = 32 := rfl
          omega
        simp only [e1, e2]
        have b1 : decide (c.toNat + 32 ≤ 13) = false := by simp
        have b2 : decide (c.toNat + 32 ≤ 31) = false := by simp
        have b3 : decide (c.toNat ≤ 13) = false := by simp; omega
        have b4 : decide (c.toNat ≤ 31) = false := by simp; omega
        simp [b1, b2, b3, b4]
      · rfl
    intro c d hc hd e
    rw [← up c hc, ← up d hd, e]
  -- stripping commutes with folding
  have drop : ∀ x y : Str, x.all isAscii = true → y.all isAscii = true → lowerA x = lowerA y →
      lowerA (x.dropWhile U.isSpace) = lowerA (y.dropWhile U.isSpace) := by
    intro x
    induction x with
    | nil =>
      intro y _ _ h
      cases y with
      | nil => rfl
      | cons d y => simp [lowerA] at h
    | cons c x ih =>
      intro y hx hy h
      cases y with
      | nil => simp [lowerA] at h
      | cons d y =>
        have h' := h
        simp only [lowerA, List.map_cons, List.cons.injEq] at h
        simp only [List.all_cons, Bool.and_eq_true] at hx hy
        rw [List.dropWhile_cons, List.dropWhile_cons, hsp c d hx.1 hy.1 h.1]
        split
        · exact ih y hx.2 hy.2 h.2
        · exact h'
  have alldrop : ∀ x : Str, x.all isAscii = true → (x.dropWhile U.isSpace).all isAscii = true := by
    intro x hx
    rw [List.all_eq_true] at hx ⊢
    exact fun c hc => hx c ((List.dropWhile_sublist _).subset hc)
  have allrev : ∀ x : Str, x.all isAscii = true → x.reverse.all isAscii = true := by
    intro x hx; simpa using hx
  have rev : ∀ x : Str, lowerA x.reverse = (lowerA x).reverse := by intro x; simp [lowerA]
  have hstrip : lowerA (stripP U.isSpace v) = lowerA (stripP U.isSpace w) := by
    unfold stripP rstripP lstripP
    rw [rev, rev]
    congr 1
    apply drop _ _ (allrev _ (alldrop _ hv)) (allrev _ (alldrop _ hw))
    rw [rev, rev, drop v w hv hw h]
  have hall : ∀ x : Str, x.all isAscii = true → (stripP U.isSpace x).all isAscii = true := by
    intro x hx
    unfold stripP rstripP lstripP
    exact allrev _ (alldrop _ (allrev _ (alldrop _ hx)))
  unfold normName
  rw [U.lower_ascii _ (hall v hv), U.lower_ascii _ (hall w hw), hstrip]

/-- Membership in the set stored under a key. -/
def inDict (d : List (Str × List Str)) (k a : Str) : Prop := ∃ s, (k, s) ∈ d ∧ a ∈ s

theorem mergeAttrs_in (acc : List (Str × List Str)) (key : Str) (set : List Str) (k a : Str) :
    inDict (mergeAttrs acc key set) k a ↔ inDict acc k a ∨ (k = key ∧ a ∈ set) := by
  induction acc with
  | nil =>
    simp only [mergeAttrs, inDict, List.mem_cons, Prod.mk.injEq, List.not_mem_nil, or_false, false_and, exists_false, false_or]
    constructor
    · rintro ⟨s, ⟨rfl, rfl⟩, h⟩; exact ⟨rfl, h⟩
    · rintro ⟨rfl, h⟩; exact ⟨_, ⟨rfl, rfl⟩, h⟩
  | cons p r ih =>
    obtain ⟨pk, ps⟩ := p
    unfold mergeAttrs
    split
    · rename_i h
      simp only [inDict, List.mem_cons, Prod.mk.injEq]
      constructor
      · rintro ⟨s, ⟨rfl, rfl⟩ | hs, ha⟩
        · rcases List.mem_append.mp ha with ha | ha
          · exact .inl ⟨ps, .inl ⟨rfl, rfl⟩, ha⟩
          · exact .inr ⟨h, ha⟩
        · exact .inl ⟨s, .inr hs, ha⟩
      · rintro (⟨s, ⟨rfl, rfl⟩ | hs, ha⟩ | ⟨rfl, ha⟩)
        · exact ⟨s ++ set, .inl ⟨rfl, rfl⟩, by simp [ha]⟩
        · exact ⟨s, .inr hs, ha⟩
        · exact ⟨ps ++ set, .inl ⟨h.symm, rfl⟩, by simp [ha]⟩
    · have ih' := ih
      simp only [inDict, List.mem_cons, Prod.mk.injEq] at ih' ⊢
      constructor
      · rintro ⟨s, ⟨rfl, rfl⟩ | hs, ha⟩
        · exact .inl ⟨s, .inl ⟨rfl, rfl⟩, ha⟩
        · rcases ih'.mp ⟨s, hs, ha⟩ with ⟨s', hs', ha'⟩ | h'
          · exact .inl ⟨s', .inr hs', ha'⟩
          · exact .inr h'
      · rintro (⟨s, ⟨rfl, rfl⟩ | hs, ha⟩ | h')
        · exact ⟨s, .inl ⟨rfl, rfl⟩, ha⟩
        · obtain ⟨s', hs', ha'⟩ := ih'.mpr (.inl ⟨s, hs, ha⟩)
          exact ⟨s', .inr hs', ha'⟩
        · obtain ⟨s', hs', ha'⟩ := ih'.mpr (.inr h')
          exact ⟨s', .inr hs', ha'⟩

theorem mergeAttrs_keys (acc : List (Str × List Str)) (key : Str) (set : List Str) (k : Str) :
    k ∈ (mergeAttrs acc key set).map Prod.fst ↔ k ∈ acc.map Prod.fst ∨ k = key := by
  induction acc with
  | nil => simp [mergeAttrs]
  | cons p r ih =>
    obtain ⟨pk, ps⟩ := p
    unfold mergeAttrs
    split
    · rename_i h
      simp only [List.map_cons, List.mem_cons]
      subst h
      constructor
      · exact .inl
      · rintro (h | h)
        · exact h
        · exact .inl h
    · simp only [List.map_cons, List.mem_cons, ih, or_assoc]

theorem mergeAttrs_nodup (acc : List (Str × List Str)) (key : Str) (set : List Str) (h : (acc.map Prod.fst).Nodup) :
    ((mergeAttrs acc key set).map Prod.fst).Nodup := by
  induction acc with
  | nil => simp [mergeAttrs]
  | cons p r ih =>
    obtain ⟨pk, ps⟩ := p
    simp only [List.map_cons, List.nodup_cons] at h
    unfold mergeAttrs
    split
    · simpa using h
    · rename_i hk
      simp only [List.map_cons, List.nodup_cons]
      refine ⟨?_, ih h.2⟩
      rw [mergeAttrs_keys]
      rintro (h' | h')
      · exact h.1 h'
      · exact hk h'

theorem normAttrs_spec (U : Uni) (config acc na : List (Str × List Str)) (h : normAttrs U acc config = some na)
    (hn : (acc.map Prod.fst).Nodup) :
    (na.map Prod.fst).Nodup ∧ (∀ p ∈ config, normName U p.1 ≠ []) ∧
    (∀ k, k ∈ na.map Prod.fst ↔ k ∈ acc.map Prod.fst ∨ ∃ p ∈ config, normName U p.1 = k) ∧
    (∀ k a, inDict na k a ↔ inDict acc k a ∨ (∃ p ∈ config, normName U p.1 = k ∧ a ∈ normSet U p.2)) := by
  induction config generalizing acc with
  | nil =>
    simp only [normAttrs, Option.some.injEq] at h
    subst h
    exact ⟨hn, by simp, by simp, by simp⟩
  | cons p r ih =>
    obtain ⟨tag, attrs⟩ := p
    unfold normAttrs at h
    split at h
    · simp at h
    · rename_i hne
      obtain ⟨h1, h2, h3, h4⟩ := ih _ h (mergeAttrs_nodup acc _ _ hn)
      refine ⟨h1, ?_, ?_, ?_⟩
      · intro q hq
        rcases List.mem_cons.mp hq with hq | hq
        · subst hq; simpa using hne
        · exact h2 q hq
      · intro k
        rw [h3, mergeAttrs_keys]
        constructor
        · rintro ((h | h) | ⟨q, hq, h⟩)
          · exact .inl h
          · exact .inr ⟨(tag, attrs), by simp, h.symm⟩
          · exact .inr ⟨q, by simp [hq], h⟩
        · rintro (h | ⟨q, hq, h⟩)
          · exact .inl (.inl h)
          · rcases List.mem_cons.mp hq with hq | hq
            · subst hq; exact .inl (.inr h.symm)
            · exact .inr ⟨q, hq, h⟩
      · intro k a
        rw [h4, mergeAttrs_in]
        constructor
        · rintro ((h | ⟨h, ha⟩) | ⟨q, hq, h⟩)
          · exact .inl h
          · exact .inr ⟨(tag, attrs), by simp, h.symm, ha⟩
          · exact .inr ⟨q, by simp [hq], h⟩
        · rintro (h | ⟨q, hq, h, ha⟩)
          · exact .inl (.inl h)
          · rcases List.mem_cons.mp hq with hq | hq
            · subst hq; exact .inl (.inr ⟨h.symm, ha⟩)
            · exact .inr ⟨q, hq, h, ha⟩

theorem dictGet_iff (d : List (Str × List Str)) (hn : (d.map Prod.fst).Nodup) (k : Str) (s : List Str) :
    dictGet d k = some s ↔ (k, s) ∈ d := by
  induction d with
  | nil => simp [dictGet]
  | cons p r ih =>
    obtain ⟨pk, ps⟩ := p
    simp only [List.map_cons, List.nodup_cons] at hn
    unfold dictGet
    by_cases h : pk = k
    · subst h
      simp only [List.find?_cons, decide_true, Option.map_some, Option.some.injEq, List.mem_cons, Prod.mk.injEq, true_and]
      constructor
      · intro h; exact .inl h.symm
      · rintro (h | h)
        · exact h.symm
        · exact absurd (List.mem_map.mpr ⟨_, h, rfl⟩) hn.1
    · have := ih hn.2
      unfold dictGet at this
      rw [List.find?_cons]
      simp only [h, decide_false, List.mem_cons, Prod.mk.injEq]
      rw [this]
      constructor
      · exact .inr
      · rintro (⟨h', -⟩ | h')
        · exact absurd h'.symm h
        · exact h'

theorem dictGet_mem (d : List (Str × List Str)) (hn : (d.map Prod.fst).Nodup) (k a : Str) :
    a ∈ (dictGet d k).getD [] ↔ inDict d k a := by
  cases h : dictGet d k with
  | none =>
    simp only [Option.getD_none, List.not_mem_nil, false_iff]
    rintro ⟨s, hs, -⟩
    rw [(dictGet_iff d hn k s).mpr hs] at h
    cases h
  | some s =>
    simp only [Option.getD_some]
    constructor
    · intro ha; exact ⟨s, (dictGet_iff d hn k s).mp h, ha⟩
    · rintro ⟨s', hs', ha⟩
      rw [(dictGet_iff d hn k s').mpr hs'] at h
      cases h; exact ha

/-- C54: the attributes a policy allows on an element are exactly those that the configuration lists for it or under `*`, up to
trimming and case of both the element names and the attribute names, also when several configured keys denote the same
element. -/
theorem C54_attributes (U : Uni) (tags : List Str) (attrs : List (Str × List Str)) (drop css rel : List Str) (p : Policy)
    (h : mkPolicy U tags attrs drop css rel = some p) (tag a : Str) (ht : tag ≠ ['*']) :
    a ∈ p.attrsFor tag ↔ Lists (fun v => U.lower (stripP U.isSpace v)) attrs tag a := by
  unfold mkPolicy at h
  cases hna : normAttrs U [] attrs with
  | none => rw [hna] at h; simp at h
  | some na =>
    rw [hna] at h
    dsimp only at h
    split at h
    · simp at h
    · simp only [Option.some.injEq] at h
      obtain ⟨h1, -, h3, h4⟩ := normAttrs_spec U attrs [] na hna (by simp)
      have hg : ∀ a, a ∈ p.attrsGlobal ↔ inDict na c%"*" a := by
        intro a; rw [← h]; exact dictGet_mem na h1 _ a
      have hlist : ∀ k, inDict na k a ↔ a ≠ [] ∧ ∃ key as v, (key, as) ∈ attrs ∧ normName U key = k ∧ v ∈ as ∧ normName U v = a := by
        intro k
        rw [h4]
        constructor
        · rintro (⟨s, hs, -⟩ | ⟨⟨key, as⟩, hq, hk, ha⟩)
          · simp at hs
          · obtain ⟨hne, v, hv, e⟩ := (C54_normalized U as a).mp ha
            exact ⟨hne, key, as, v, hq, hk, hv, e.symm⟩
        · rintro ⟨hne, key, as, v, hq, hk, hv, e⟩
          exact .inr ⟨(key, as), hq, hk, (C54_normalized U as a).mpr ⟨hne, v, hv, e.symm⟩⟩
      have hfin : Lists (fun v => U.lower (stripP U.isSpace v)) attrs tag a ↔ inDict na tag a ∨ inDict na c%"*" a := by
        rw [hlist, hlist]
        unfold Lists
        constructor
        · rintro ⟨hne, key, as, v, hq, hk | hk, hv⟩
          · exact .inl ⟨hne, key, as, v, hq, hk, hv⟩
          · exact .inr ⟨hne, key, as, v, hq, hk, hv⟩
        · rintro (⟨hne, key, as, v, hq, hk, hv⟩ | ⟨hne, key, as, v, hq, hk, hv⟩)
          · exact ⟨hne, key, as, v, hq, .inl hk, hv⟩
          · exact ⟨hne, key, as, v, hq, .inr hk, hv⟩
      rw [hfin]
      have hb : p.attrsByTag = (na.filter fun q => q.1 ≠ c%"*").map fun q => (q.1, p.attrsGlobal ++ q.2) := by rw [← h]
      have hbn : (p.attrsByTag.map Prod.fst).Nodup := by
        rw [hb, List.map_map]
        have : (Prod.fst ∘ fun q : Str × List Str => (q.1, p.attrsGlobal ++ q.2)) = Prod.fst := rfl
        rw [this]
        exact (List.Sublist.map Prod.fst List.filter_sublist).nodup h1
      unfold Policy.attrsFor
      cases hd : dictGet p.attrsByTag tag with
      | some s =>
        have hm := (dictGet_iff _ hbn tag s).mp hd
        rw [hb, List.mem_map] at hm
        obtain ⟨⟨k, s0⟩, hq, e⟩ := hm
        simp only [Prod.mk.injEq] at e
        have hq' := (List.mem_filter.mp hq).1
        obtain ⟨e1, e2⟩ := e
        subst e1
        rw [Option.getD_some, ← e2, List.mem_append, hg]
        constructor
        · rintro (h | h)
          · exact .inr h
          · exact .inl ⟨s0, hq', h⟩
        · rintro (⟨s1, hs1, h⟩ | h)
          · have := (dictGet_iff na h1 k s1).mpr hs1
            rw [(dictGet_iff na h1 k s0).mpr hq'] at this
            cases this
            exact .inr h
          · exact .inl h
      | none =>
        rw [Option.getD_none, hg]
        constructor
        · exact .inr
        · rintro (⟨s1, hs1, -⟩ | h)
          · exfalso
            have : (tag, p.attrsGlobal ++ s1) ∈ p.attrsByTag := by
              rw [hb, List.mem_map]
              exact ⟨(tag, s1), List.mem_filter.mpr ⟨hs1, by simpa using ht⟩, rfl⟩
            rw [(dictGet_iff _ hbn _ _).mpr this] at hd
            cases hd
          · exact h

/-- C54: an element is allowed exactly when some configured tag name is its name up to trimming and case. -/
theorem C54_tags (U : Uni) (tags : List Str) (attrs : List (Str × List Str)) (drop css rel : List Str) (p : Policy)
    (h : mkPolicy U tags attrs drop css rel = some p) (tag : Str) (ht : tag ≠ []) :
    (tag ∈ p.allowedTags ↔ ∃ v ∈ tags, tag = U.lower (stripP U.isSpace v)) ∧
    (tag ∈ p.dropContentTags ↔ ∃ v ∈ drop, tag = U.lower (stripP U.isSpace v)) := by
  unfold mkPolicy at h
  cases hna : normAttrs U [] attrs with
  | none => rw [hna] at h; simp at h
  | some na =>
    rw [hna] at h
    dsimp only at h
    split at h
    · simp at h
    · simp only [Option.some.injEq] at h
      rw [← h]
      refine ⟨?_, ?_⟩
      · rw [C54_normalized]; simp [ht]
      · rw [C54_normalized]; simp [ht]

/-- C54: a policy that allows the `style` attribute anywhere without any CSS property is rejected, and so is an empty key in
`allowed_attributes`. -/
theorem C54_rejected (U : Uni) (tags : List Str) (attrs : List (Str × List Str)) (drop css rel : List Str)
    (hbad : (css = [] ∧ ∃ key as v, (key, as) ∈ attrs ∧ v ∈ as ∧ U.lower (stripP U.isSpace v) = c%"style") ∨
      (∃ key as, (key, as) ∈ attrs ∧ U.lower (stripP U.isSpace key) = [])) :
    mkPolicy U tags attrs drop css rel = none := by
  unfold mkPolicy
  cases hna : normAttrs U [] attrs with
  | none => rfl
  | some na =>
    obtain ⟨-, h2, -, h4⟩ := normAttrs_spec U attrs [] na hna (by simp)
    rcases hbad with ⟨hcss, key, as, v, hk, hv, e⟩ | ⟨key, as, hk, e⟩
    · have : inDict na (normName U key) c%"style" :=
        (h4 _ _).mpr (.inr ⟨(key, as), hk, rfl, (C54_normalized U as _).mpr ⟨by decide, v, hv, e.symm⟩⟩)
      obtain ⟨s, hs, ha⟩ := this
      have hany : na.any (fun p => p.2.contains c%"style") = true := by
        rw [List.any_eq_true]
        exact ⟨_, hs, by simpa using ha⟩
      dsimp only
      rw [if_pos (by rw [hany, hcss]; rfl)]
    · exact absurd e (h2 (key, as) hk)

example : ∃ p, mkPolicy Uni.sample [c%" DIV", c%"a"] [(c%"*", [c%"ID"]), (c%"A", [c%"href"]), (c%" a ", [c%"Title "])] [] [] [] = some p ∧
    p.attrsFor c%"a" = [c%"id", c%"href", c%"title"] ∧ p.attrsFor c%"div" = [c%"id"] := ⟨_, rfl, by decide, by decide⟩

/-! ### C38 -/

mutual
theorem flatten1_leaves (t : TSpec) : flatten1 t = leaves t := by
  cases t with
  | stage e items =>
    cases e
    · rfl
    · simp only [flatten1, leaves, if_true]; exact flattenL_leaves items
  | sanitize e p => rfl
  | other e i => rfl
theorem flattenL_leaves (ts : List TSpec) : flattenL ts = leavesL ts := by
  cases ts with
  | nil => rfl
  | cons t ts => rw [flattenL, leavesL, flatten1_leaves t, flattenL_leaves ts]
end

mutual
theorem bind_leaves1 (d : Nat) (t : TSpec) : leaves (bindPolicy1 d t) = (leaves t).map (bindPolicy1 d) := by
  cases t with
  | stage e items =>
    cases e
    · rfl
    · simp only [bindPolicy1, leaves]; exact bind_leavesL d items
  | sanitize e p => cases p <;> rfl
  | other e i => rfl
theorem bind_leavesL (d : Nat) (ts : List TSpec) : leavesL (bindPolicyL d ts) = (leavesL ts).map (bindPolicy1 d) := by
  cases ts with
  | nil => rfl
  | cons t ts => rw [bindPolicyL, leavesL, leavesL, bind_leaves1 d t, bind_leavesL d ts, List.map_append]
end

theorem leavesL_append (a b : List TSpec) : leavesL (a ++ b) = leavesL a ++ leavesL b := by
  induction a with
  | nil => rfl
  | cons t a ih => rw [List.cons_append, leavesL, leavesL, ih, List.append_assoc]

/-- C38 (all but disabled sanitize steps): unless `sanitize=False` is passed, the document is sanitized during construction,
provided the transforms contain no explicitly disabled sanitize step, or also an enabled one. `C38_disabled_fails` shows
that a disabled step is not replaced. -/
theorem C38_sanitizes_partial (sanitize : Option Bool) (policy : Option Nat) (compilable : Bool) (dflt : Nat) (ts : List TSpec)
    (h : sanitize ≠ some false)
    (hd : (∀ p, TSpec.sanitize false p ∉ leavesL ts) ∨ ∃ p, TSpec.sanitize true p ∈ leavesL ts) :
    Sanitizes (plan sanitize policy compilable dflt ts) := by
  have hen : sanitize.getD true = true := by
    cases sanitize with
    | none => rfl
    | some b => cases b; exact absurd rfl h; rfl
  unfold plan
  simp only [hen, Bool.true_and]
  split
  · trivial
  · rw [if_neg (by simp)]
    have run : ∀ (l : List TSpec) (p : Nat), TSpec.sanitize true (some p) ∈ leavesL l → Sanitizes (.steps (runSteps l)) := by
      intro l p hp
      refine ⟨p, ?_⟩
      unfold runSteps
      rw [List.mem_filterMap]
      exact ⟨_, by rw [flattenL_leaves]; exact hp, rfl⟩
    by_cases hs : hasSanitize ts = true
    · simp only [hs, Bool.not_true, Bool.false_eq_true, if_false]
      have : ∃ p, TSpec.sanitize true p ∈ leavesL ts := by
        rcases hd with hd | hd
        · unfold hasSanitize at hs
          rw [List.any_eq_true, flattenL_leaves] at hs
          obtain ⟨t, ht, hts⟩ := hs
          cases t with
          | sanitize e p =>
            cases e
            · exact absurd ht (hd p)
            · exact ⟨p, ht⟩
          | stage e l => simp [isSanitize] at hts
          | other e i => simp [isSanitize] at hts
        · exact hd
      obtain ⟨p, hp⟩ := this
      refine run _ (p.getD (policy.getD dflt)) ?_
      rw [bind_leavesL, List.mem_map]
      refine ⟨_, hp, ?_⟩
      cases p <;> rfl
    · have hs' : hasSanitize ts = false := by simpa using hs
      simp only [hs', Bool.not_false, if_true]
      refine run _ (policy.getD dflt) ?_
      rw [leavesL_append]
      exact List.mem_append.mpr (.inr (by simp [leavesL, leaves]))

/-- C38: when the transforms contain no sanitize step, the automatic one is last, after every other transform, with the
constructor's policy (the default policy when none was given). -/
theorem C38_last (sanitize : Option Bool) (policy : Option Nat) (compilable : Bool) (dflt : Nat) (ts : List TSpec)
    (h : sanitize ≠ some false) (hne : ts ≠ []) (hd : ∀ e p, TSpec.sanitize e p ∉ leavesL ts) :
    ∃ l, plan sanitize policy compilable dflt ts = .steps (l ++ [some (policy.getD dflt)]) := by
  have hen : sanitize.getD true = true := by
    cases sanitize with
    | none => rfl
    | some b => cases b; exact absurd rfl h; rfl
  have hemp : ts.isEmpty = false := by simpa using hne
  have hs : hasSanitize ts = false := by
    unfold hasSanitize
    rw [List.any_eq_false, flattenL_leaves]
    intro t ht
    cases t with
    | sanitize e p => exact absurd ht (hd e p)
    | stage e l => simp [isSanitize]
    | other e i => simp [isSanitize]
  unfold plan
  simp only [hen, hemp, hs, Bool.true_and, Bool.false_and, Bool.and_false, Bool.not_false, if_true, Bool.false_eq_true, if_false]
  refine ⟨runSteps (bindPolicyL (policy.getD dflt) ts), ?_⟩
  unfold runSteps
  rw [flattenL_leaves, leavesL_append, List.filterMap_append, ← flattenL_leaves]
  rfl

/-- Finding F11: with `sanitize=True` (the default) and a disabled `Sanitize` in the transform list, nothing sanitizes. -/
theorem C38_disabled_fails :
    ¬ Sanitizes (plan none none true 0 [.sanitize false none]) ∧ ¬ Sanitizes (plan (some true) (some 1) true 0 [.sanitize false none]) := by
  constructor <;> (simp [Sanitizes, plan, hasSanitize, isSanitize, flattenL, flatten1, bindPolicyL, bindPolicy1, runSteps])

example : plan none (some 7) true 0 [.other true 1, .stage true [.other true 2]] = .steps [none, none, some 7] := by
  simp [plan, hasSanitize, isSanitize, flattenL, flatten1, bindPolicyL, bindPolicy1, runSteps]

end JH
