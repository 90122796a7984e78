import Verif.Model.Encoding
import Verif.Lemmas.Py
/-! C39, C40: the encoding of the input. -/
namespace JH

theorem normLabel_supported (U : Uni) (l e : Str) (h : normLabel U l = some e) : e ∈ supportedEncodings := by
  unfold normLabel at h
  dsimp only at h
  rw [Option.ite_none_left_eq_some, Option.map_eq_some_iff] at h
  obtain ⟨-, p, hp, rfl⟩ := h
  have hm := List.mem_of_find?_eq_some hp
  have all : ∀ q ∈ encLabels, q.2 ∈ supportedEncodings := by decide
  exact all p hm

theorem normMeta_supported (U : Uni) (l : Bytes) (e : Str) (h : normMeta U l = some e) :
    e ∈ supportedEncodings ∧ e ∉ [c%"utf-16", c%"utf-16le", c%"utf-16be"] := by
  unfold normMeta at h
  split at h
  · simp at h
  · rename_i x hx
    have hs := normLabel_supported U _ x hx
    by_cases hc : [c%"utf-16", c%"utf-16le", c%"utf-16be", c%"utf-32", c%"utf-32le", c%"utf-32be"].contains x = true
    · rw [if_pos hc] at h
      simp only [Option.some.injEq] at h
      subst h; decide
    · rw [if_neg hc] at h
      simp only [Option.some.injEq] at h
      subst h
      refine ⟨hs, fun hm => hc ?_⟩
      simp only [List.mem_cons, List.not_mem_nil, or_false] at hm
      rcases hm with rfl | rfl | rfl <;> decide

theorem metaDeclares_supported (U : Uni) (a : MetaAttrs) (e : Str) (h : metaDeclares U a = some e) :
    e ∈ supportedEncodings ∧ e ∉ [c%"utf-16", c%"utf-16le", c%"utf-16be"] := by
  have key : ∀ (x : Bytes), (if x.isEmpty then none else normMeta U x) = some e → e ∈ supportedEncodings ∧ e ∉ [c%"utf-16", c%"utf-16le", c%"utf-16be"] := by
    intro x hx
    rw [Option.ite_none_left_eq_some] at hx
    exact normMeta_supported U x e hx.2
  unfold metaDeclares at h
  dsimp only at h
  split at h
  · rename_i e' he'
    simp only [Option.some.injEq] at h
    subst h
    split at he'
    · exact key _ he'
    · simp at he'
  · split at h
    · split at h
      · split at h
        · exact key _ h
        · simp at h
      · simp at h
    · simp at h

theorem prescanF_supported (U : Uni) (total : Nat) : ∀ fuel nc (s : Bytes) e, prescanF U total fuel nc s = some e →
    e ∈ supportedEncodings ∧ e ∉ [c%"utf-16", c%"utf-16le", c%"utf-16be"] := by
  intro fuel
  induction fuel with
  | zero => intro nc s e h; simp [prescanF] at h
  | succ fuel ih =>
    intro nc s e h
    cases s with
    | nil => simp [prescanF] at h
    | cons c t =>
      rw [prescanF] at h
      dsimp only at h
      rw [Option.ite_none_left_eq_some] at h
      replace h := h.2
      split at h
      · exact ih _ _ e h
      · split at h
        · split at h
          · simp at h
          · exact ih _ _ e h
        · split at h
          · exact ih _ _ e h
          · split at h
            · exact ih _ _ e h
            · split at h
              · exact ih _ _ e h
              · split at h
                · rename_i a rest _
                  split at h
                  · rename_i e' he'
                    simp only [Option.some.injEq] at h
                    subst h
                    exact metaDeclares_supported U a _ he'
                  · exact ih _ _ e h
                · exact ih _ _ e h
                · exact ih _ _ e h

/-- C39: whatever the bytes and the label, the chosen encoding is one of seven names; UTF-7 is not among them. -/
theorem C39_supported (U : Uni) (data : Bytes) (transport : Option Str) :
    (decodeHtml U data transport).2 ∈
      [c%"utf-8", c%"windows-1252", c%"iso-8859-2", c%"euc-jp", c%"utf-16", c%"utf-16le", c%"utf-16be"] ∧
    decodeHtml U data transport = (data.drop (sniff U data transport).2, (sniff U data transport).1) := by
  have hs : (sniff U data transport).1 ∈ supportedEncodings := by
    unfold sniff
    split
    · rename_i r hr
      unfold sniffBom at hr
      split at hr
      · simp only [Option.some.injEq] at hr; subst hr; decide
      · split at hr
        · simp only [Option.some.injEq] at hr; subst hr; decide
        · split at hr
          · simp only [Option.some.injEq] at hr; subst hr; decide
          · simp at hr
    · split
      · rename_i e he
        cases transport with
        | none => simp at he
        | some l => exact normLabel_supported U l e he
      · split
        · rename_i e he; exact (prescanF_supported U _ _ _ _ e he).1
        · decide
  have hd : decodeHtml U data transport = (data.drop (sniff U data transport).2, (sniff U data transport).1) := by
    unfold decodeHtml
    generalize sniff U data transport = r at hs
    obtain ⟨enc, bom⟩ := r
    dsimp only at hs ⊢
    rw [if_pos (by simpa using hs)]
  exact ⟨by rw [hd]; exact hs, hd⟩

/-- C39: a label for UTF-7, however spelled and padded, selects windows-1252. -/
theorem C39_utf7 (U : Uni) (data : Bytes) (label : Str) (hb : sniffBom data = none)
    (h : U.lower (stripP U.isSpace label) ∈ [c%"utf-7", c%"utf7", c%"x-utf-7"]) :
    decodeHtml U data (some label) = (data, c%"windows-1252") := by
  have hne : (stripP U.isSpace label).isEmpty = false := by
    cases hs : stripP U.isSpace label with
    | cons => rfl
    | nil =>
      rw [hs, U.lower_ascii [] rfl] at h
      exact absurd h (by decide)
  have hn : normLabel U label = some c%"windows-1252" := by
    unfold normLabel
    dsimp only
    rw [hne]
    simp only [Bool.false_eq_true, if_false]
    generalize U.lower (stripP U.isSpace label) = l at h
    simp only [List.mem_cons, List.not_mem_nil, or_false] at h
    rcases h with rfl | rfl | rfl <;> decide
  unfold decodeHtml sniff
  rw [hb]
  simp only [Option.bind_some, hn]
  rfl

example : decodeHtml Uni.sample (ascii c%"abc") (some c%" UTF-7\n") = (ascii c%"abc", c%"windows-1252") := by decide

/-- C40: a byte order mark decides, whatever the label and the rest of the data; the mark itself is not part of the payload. -/
theorem C40_bom (U : Uni) (rest : Bytes) (transport : Option Str) :
    decodeHtml U ([0xef, 0xbb, 0xbf] ++ rest) transport = (rest, c%"utf-8") ∧
    decodeHtml U ([0xff, 0xfe] ++ rest) transport = (rest, c%"utf-16le") ∧
    decodeHtml U ([0xfe, 0xff] ++ rest) transport = (rest, c%"utf-16be") := by
  refine ⟨?_, ?_, ?_⟩ <;> rw [(C39_supported U _ transport).2] <;> simp [sniff, sniffBom]

/-- No byte order mark at the start of the data. -/
def NoBom (data : Bytes) : Prop :=
  ¬ [0xef, 0xbb, 0xbf] <+: data ∧ ¬ [0xff, 0xfe] <+: data ∧ ¬ [0xfe, 0xff] <+: data

theorem noBom_sniff (data : Bytes) (h : NoBom data) : sniffBom data = none := by
  have t : ∀ (p : Bytes), ¬ p <+: data → data.take p.length ≠ p := fun p hp e => hp (by rw [← e]; exact List.take_prefix _ _)
  have t1 : data.take 3 ≠ [0xef, 0xbb, 0xbf] := t _ h.1
  have t2 : data.take 2 ≠ [0xff, 0xfe] := t _ h.2.1
  have t3 : data.take 2 ≠ [0xfe, 0xff] := t _ h.2.2
  unfold sniffBom
  rw [if_neg t1, if_neg t2, if_neg t3]

/-- C40: without a byte order mark, a recognised transport label decides, whatever the data say. -/
theorem C40_transport (U : Uni) (data : Bytes) (label e : Str) (hb : NoBom data) (hl : normLabel U label = some e) :
    decodeHtml U data (some label) = (data, e) := by
  rw [(C39_supported U data _).2]
  simp [sniff, noBom_sniff data hb, hl]

/-- C40: without a byte order mark and a recognised label, the declaration in the data decides, if there is one; otherwise
windows-1252. A declaration never selects UTF-16. -/
theorem C40_meta (U : Uni) (data : Bytes) (transport : Option Str) (hb : NoBom data) (hl : ∀ l, transport = some l → normLabel U l = none) :
    decodeHtml U data transport = (data, (prescan U data).getD c%"windows-1252") ∧
      ∀ e, prescan U data = some e → e ∉ [c%"utf-16", c%"utf-16le", c%"utf-16be"] := by
  constructor
  · rw [(C39_supported U data _).2]
    have ht : transport.bind (normLabel U) = none := by
      cases transport with
      | none => rfl
      | some l => exact hl l rfl
    simp only [sniff, noBom_sniff data hb, ht]
    cases prescan U data <;> simp
  · intro e he
    exact (prescanF_supported U _ _ _ _ e he).2

/-! ### The prescan -/

theorem prescan_filler (U : Uni) (total : Nat) : ∀ (p : Bytes) (fuel nc : Nat) (s : Bytes), 0x3C ∉ p → nc + p.length ≤ maxNonComment →
    total ≤ maxScan → prescanF U total (p.length + fuel) nc (p ++ s) = prescanF U total fuel (nc + p.length) s := by
  intro p
  induction p with
  | nil => intro fuel nc s _ _ _; simp
  | cons c p ih =>
    intro fuel nc s hp hn ht
    simp only [List.mem_cons, not_or] at hp
    simp only [List.length_cons] at hn
    rw [show (c :: p).length + fuel = (p.length + fuel) + 1 by simp; omega, List.cons_append, prescanF]
    dsimp only
    rw [if_neg, if_pos (fun h => hp.1 h.symm), ih fuel (nc + 1) s hp.2 (by omega) ht]
    · congr 1; simp; omega
    · simp only [Bool.or_eq_true, decide_eq_true_eq, not_or]; unfold maxScan maxNonComment at *; omega

/-- C40: a declaration after 1024 bytes of ordinary text is ignored. -/
theorem C40_window (U : Uni) (p rest : Bytes) (hp : 0x3C ∉ p) (hl : 1024 ≤ p.length) : prescan U (p ++ rest) = none := by
  suffices ∀ (p : Bytes) (total fuel nc : Nat) (s : Bytes), 0x3C ∉ p → maxNonComment ≤ nc + p.length → prescanF U total fuel nc (p ++ s) = none from
    this p _ _ 0 rest hp (by unfold maxNonComment; omega)
  intro p
  induction p with
  | nil =>
    intro total fuel nc s _ hn
    cases fuel with
    | zero => simp [prescanF]
    | succ fuel =>
      cases s with
      | nil => simp [prescanF]
      | cons c t =>
        rw [List.nil_append, prescanF]
        dsimp only
        rw [if_pos]
        simp only [List.length_nil, Nat.add_zero] at hn
        simp [hn]
  | cons c p ih =>
    intro total fuel nc s hp hn
    simp only [List.mem_cons, not_or] at hp
    simp only [List.length_cons] at hn
    cases fuel with
    | zero => simp [prescanF]
    | succ fuel =>
      rw [List.cons_append, prescanF]
      dsimp only
      split
      · rfl
      · rw [if_pos (fun h => hp.1 h.symm)]
        exact ih _ _ _ _ hp.2 (by omega)

theorem bFind_len (needle : Bytes) : ∀ (s a r : Bytes), bFind needle s = some (a, r) → r.length ≤ s.length := by
  intro s
  induction s with
  | nil => intro a r h; simp [bFind] at h; simp [h.2.2.symm]
  | cons c t ih =>
    intro a r h
    rw [bFind] at h
    split at h
    · simp only [Option.some.injEq, Prod.mk.injEq] at h
      rw [← h.2]; simp
    · rw [Option.map_eq_some_iff] at h
      obtain ⟨⟨a', r'⟩, h1, h2⟩ := h
      simp only [Prod.mk.injEq] at h2
      have := ih a' r' h1
      rw [← h2.2]; simp; omega

theorem skipTag_len : ∀ (s : Bytes) (q : Option Nat) (k nc : Nat), (skipTag q k nc s).2.2.length ≤ s.length := by
  intro s
  induction s with
  | nil => intro q k nc; simp [skipTag]
  | cons c t ih =>
    intro q k nc
    rw [skipTag.eq_def]
    dsimp only
    split
    · simp
    · cases q with
      | none =>
        dsimp only
        split
        · have := ih (some c) (k + 1) (nc + 1); simp; omega
        · split
          · simp
          · have := ih none (k + 1) (nc + 1); simp; omega
      | some q =>
        dsimp only
        have := ih (if c = q then none else some q) (k + 1) (nc + 1); simp; omega

theorem skipTag_lt (c : Nat) (t : Bytes) (k nc : Nat) (h : ¬ (decide (k ≥ maxScan) || decide (nc ≥ maxNonComment)) = true) :
    (skipTag none k nc (c :: t)).2.2.length < t.length + 1 := by
  rw [skipTag, if_neg h]
  split
  · have := skipTag_len t (some c) (k + 1) (nc + 1); omega
  · split
    · simp
    · have := skipTag_len t none (k + 1) (nc + 1); omega

/-- The offset only matters for the cap. -/
theorem skipTag_off : ∀ (s : Bytes) (q : Option Nat) (k k' nc : Nat), k + s.length ≤ maxScan → k' + s.length ≤ maxScan →
    (skipTag q k nc s).2 = (skipTag q k' nc s).2 := by
  intro s
  induction s with
  | nil => intro q k k' nc _ _; simp [skipTag]
  | cons c t ih =>
    intro q k k' nc h h'
    simp only [List.length_cons] at h h'
    have e1 : (decide (k ≥ maxScan)) = false := by simp; omega
    have e2 : (decide (k' ≥ maxScan)) = false := by simp; omega
    rw [skipTag.eq_def, skipTag.eq_def]
    dsimp only
    rw [e1, e2]
    split
    · rfl
    · cases q with
      | none =>
        dsimp only
        split
        · exact ih _ _ _ _ (by omega) (by omega)
        · split
          · rfl
          · exact ih _ _ _ _ (by omega) (by omega)
      | some q => exact ih _ _ _ _ (by omega) (by omega)

theorem metaValue_len (s : Bytes) (v : Option Bytes) (r : Bytes) (h : metaValue s = some (some (v, r))) : r.length ≤ s.length := by
  unfold metaValue at h
  split at h
  · rename_i r0
    have hd := (List.dropWhile_sublist bSpace (l := r0)).length_le
    split at h
    · simp at h
    · rename_i q r1 hq
      rw [hq] at hd
      split at h
      · split at h
        · simp only [Option.some.injEq, Prod.mk.injEq] at h
          rw [← h.2]
          have := (List.dropWhile_sublist (fun x => decide (x ≠ q)) (l := r1)).length_le
          simp only [List.length_cons, List.length_drop] at hd ⊢; omega
        · simp at h
      · simp only [Option.some.injEq, Prod.mk.injEq] at h
        rw [← h.2]
        have := (List.dropWhile_sublist (fun b => !(bSpace b || decide (b = 0x3E) || decide (b = 0x3C))) (l := q :: r1)).length_le
        simp only [List.length_cons] at hd this ⊢; omega
  · simp only [Option.some.injEq, Prod.mk.injEq] at h
    rw [← h.2]; exact Nat.le_refl _

theorem metaLoop_len (total : Nat) : ∀ (fuel : Nat) (a : MetaAttrs) (s : Bytes) (a' : MetaAttrs) (r : Bytes),
    metaLoop total fuel a s = .gt a' r → r.length < s.length := by
  intro fuel
  induction fuel with
  | zero => intro a s a' r h; simp [metaLoop] at h
  | succ fuel ih =>
    intro a s a' r h
    cases s with
    | nil => simp [metaLoop] at h
    | cons c t =>
      rw [metaLoop] at h
      split at h
      · simp at h
      · split at h
        · simp only [MetaEnd.gt.injEq] at h; rw [h.2]; simp
        · split at h
          · simp at h
          · split at h
            · have := ih _ _ _ _ h; simp; omega
            · dsimp only at h
              split at h
              · simp at h
              · simp at h
              · rename_i v rest hv
                have h1 := ih _ _ _ _ h
                have h2 := metaValue_len _ _ _ hv
                have h3 := (List.dropWhile_sublist bSpace (l := (c :: t).dropWhile fun b => !(bSpace b || decide (b = 0x3D) || decide (b = 0x3E) || decide (b = 0x2F) || decide (b = 0x3C)))).length_le
                have h4 := (List.dropWhile_sublist (fun b => !(bSpace b || decide (b = 0x3D) || decide (b = 0x3E) || decide (b = 0x2F) || decide (b = 0x3C))) (l := c :: t)).length_le
                omega

theorem metaLoop_off (t1 t2 : Nat) (h1 : t1 ≤ maxScan) (h2 : t2 ≤ maxScan) : ∀ (fuel : Nat) (a : MetaAttrs) (s : Bytes),
    metaLoop t1 fuel a s = metaLoop t2 fuel a s := by
  have e : ∀ t, t ≤ maxScan → ∀ n, ¬ (t - (n + 1) ≥ maxScan) := by
    intro t ht n; unfold maxScan at *; omega
  intro fuel
  induction fuel with
  | zero => intro a s; simp [metaLoop]
  | succ fuel ih =>
    intro a s
    cases s with
    | nil => simp [metaLoop]
    | cons c t =>
      rw [metaLoop, metaLoop, if_neg (e t1 h1 _), if_neg (e t2 h2 _)]
      split
      · rfl
      · split
        · rfl
        · split
          · exact ih _ _
          · dsimp only
            split
            · rfl
            · rfl
            · exact ih _ _

/-- The number of rounds and the offset do not matter for data below the cap. -/
theorem prescan_off (U : Uni) (t1 t2 : Nat) (h1 : t1 ≤ maxScan) (h2 : t2 ≤ maxScan) : ∀ (n : Nat) (s : Bytes) (f1 f2 nc : Nat), s.length ≤ n →
    s.length < f1 → s.length < f2 → s.length ≤ t1 → s.length ≤ t2 → prescanF U t1 f1 nc s = prescanF U t2 f2 nc s := by
  intro n
  induction n with
  | zero =>
    intro s f1 f2 nc hn g1 g2 _ _
    have : s = [] := by simpa using hn
    subst this
    obtain ⟨f1, rfl⟩ : ∃ k, f1 = k + 1 := ⟨f1 - 1, by simp at g1; omega⟩
    obtain ⟨f2, rfl⟩ : ∃ k, f2 = k + 1 := ⟨f2 - 1, by simp at g2; omega⟩
    simp [prescanF]
  | succ n ih =>
    intro s f1 f2 nc hn g1 g2 l1 l2
    obtain ⟨f1, rfl⟩ : ∃ k, f1 = k + 1 := ⟨f1 - 1, by omega⟩
    obtain ⟨f2, rfl⟩ : ∃ k, f2 = k + 1 := ⟨f2 - 1, by omega⟩
    cases s with
    | nil => simp [prescanF]
    | cons c t =>
      simp only [List.length_cons] at hn g1 g2 l1 l2
      have e1 : decide (t1 - (t.length + 1) ≥ maxScan) = false := by simp; unfold maxScan at *; omega
      have e2 : decide (t2 - (t.length + 1) ≥ maxScan) = false := by simp; unfold maxScan at *; omega
      rw [prescanF, prescanF]
      dsimp only
      rw [e1, e2]
      split
      · rfl
      rename_i hnc
      split
      · exact ih _ _ _ _ (by omega) (by omega) (by omega) (by omega) (by omega)
      split
      · split
        · rfl
        · rename_i a rest hb
          have := bFind_len _ _ _ _ hb
          have h3 : (t.drop 3).length ≤ t.length := by simp
          exact ih _ _ _ _ (by omega) (by omega) (by omega) (by omega) (by omega)
      have hs : (skipTag none (t1 - (t.length + 1)) nc (c :: t)).2 = (skipTag none (t2 - (t.length + 1)) nc (c :: t)).2 :=
        skipTag_off _ _ _ _ _ (by simp; unfold maxScan at *; omega) (by simp; unfold maxScan at *; omega)
      have hlt := skipTag_lt c t (t2 - (t.length + 1)) nc (by rw [e2]; exact hnc)
      split
      · rw [hs]
        exact ih _ _ _ _ (by omega) (by omega) (by omega) (by omega) (by omega)
      split
      · exact ih _ _ _ _ (by omega) (by omega) (by omega) (by omega) (by omega)
      split
      · rw [hs]
        exact ih _ _ _ _ (by omega) (by omega) (by omega) (by omega) (by omega)
      rw [metaLoop_off t1 t2 h1 h2]
      split
      · rename_i a rest hm
        have hl := metaLoop_len _ _ _ _ _ _ hm
        have hd := (List.dropWhile_sublist bAlpha (l := t)).length_le
        split
        · rfl
        · exact ih _ _ _ _ (by omega) (by omega) (by omega) (by omega) (by omega)
      · exact ih _ _ _ _ (by omega) (by omega) (by omega) (by omega) (by omega)
      · have : (t.drop 1).length ≤ t.length := by simp
        exact ih _ _ _ _ (by omega) (by omega) (by omega) (by omega) (by omega)

theorem bFind_first (needle : Bytes) (hne : needle ≠ []) : ∀ (a r : Bytes), (∀ x y, a ++ needle.dropLast ≠ x ++ needle ++ y) →
    bFind needle (a ++ needle ++ r) = some (a, r) := by
  intro a
  induction a with
  | nil =>
    intro r _
    cases needle with
    | nil => exact absurd rfl hne
    | cons k n =>
      rw [List.nil_append, List.cons_append, bFind, if_pos]
      · simp
      · rw [List.isPrefixOf_iff_prefix]; exact ⟨r, by simp⟩
  | cons c a ih =>
    intro r h
    rw [List.cons_append, List.cons_append, bFind, if_neg, ih r]
    · rfl
    · intro x y e; exact h (c :: x) y (by rw [List.cons_append, e]; rfl)
    · intro hp
      rw [List.isPrefixOf_iff_prefix] at hp
      obtain ⟨y, hy⟩ := hp
      -- the occurrence at offset 0 lies inside a ++ needle.dropLast
      have hl : needle.length ≤ (c :: a ++ needle.dropLast).length := by
        have : 0 < needle.length := by cases needle with | nil => exact absurd rfl hne | cons => simp
        simp; omega
      have e1 : c :: (a ++ needle ++ r) = (c :: a ++ needle.dropLast) ++ (needle.getLast hne :: r) := by
        have hd := List.dropLast_concat_getLast hne
        calc c :: (a ++ needle ++ r) = c :: (a ++ (needle.dropLast ++ [needle.getLast hne]) ++ r) := by rw [hd]
          _ = _ := by simp
      rw [e1] at hy
      have e2 := congrArg (List.take needle.length) hy
      rw [List.take_left, List.take_append_of_le_length hl] at e2
      exact h [] ((c :: a ++ needle.dropLast).drop needle.length) (by
        have := List.take_append_drop needle.length (c :: a ++ needle.dropLast)
        rw [← e2] at this
        rw [List.nil_append]; exact this.symm)

/-- C40: a comment in front is skipped, with everything in it: for data below the 64 KiB cap, the declaration found is the one of
the data without the comment. -/
theorem C40_comment (U : Uni) (body rest : Bytes) (hb : ∀ x y, body ++ ascii c%"--" ≠ x ++ ascii c%"-->" ++ y)
    (hl : (ascii c%"<!--" ++ body ++ ascii c%"-->" ++ rest).length ≤ 65536) :
    prescan U (ascii c%"<!--" ++ body ++ ascii c%"-->" ++ rest) = prescan U rest := by
  unfold prescan
  have e : ascii c%"<!--" ++ body ++ ascii c%"-->" ++ rest = 0x3C :: (ascii c%"!--" ++ (body ++ ascii c%"-->" ++ rest)) := by
    simp [ascii]
  have hl' : rest.length ≤ 65536 := by simp at hl; omega
  generalize hT : (ascii c%"<!--" ++ body ++ ascii c%"-->" ++ rest).length = T at hl ⊢
  have hTr : rest.length < T := by rw [← hT]; simp [ascii]; omega
  rw [e, prescanF]
  dsimp only
  rw [if_neg, if_neg (by decide), if_pos (by simp [ascii])]
  · rw [show (ascii c%"!--" ++ (body ++ ascii c%"-->" ++ rest)).drop 3 = body ++ ascii c%"-->" ++ rest from by simp [ascii],
      bFind_first (ascii c%"-->") (by decide) body rest hb]
    exact prescan_off U _ _ hl hl' rest.length rest _ _ 0 (Nat.le_refl _) hTr (by omega) (by omega) (Nat.le_refl _)
  · have : maxScan = 65536 := rfl
    have : maxNonComment = 1024 := rfl
    simp only [Bool.or_eq_true, decide_eq_true_eq, not_or]
    omega

/-- C40: a `<meta charset="...">` after less than 1024 bytes of ordinary text is honoured. -/
theorem C40_meta_charset (U : Uni) (p label rest : Bytes) (e : Str) (hp : 0x3C ∉ p) (hl : p.length < 1024) (hq : 0x22 ∉ label)
    (he : normMeta U (bStrip label) = some e) (hne : bStrip label ≠ [])
    (hlen : (p ++ (ascii c%"<meta charset=\"" ++ label ++ ascii c%"\">" ++ rest)).length ≤ 65536) :
    prescan U (p ++ (ascii c%"<meta charset=\"" ++ label ++ ascii c%"\">" ++ rest)) = some e := by
  unfold prescan
  generalize hT : (p ++ (ascii c%"<meta charset=\"" ++ label ++ ascii c%"\">" ++ rest)).length = T at hlen ⊢
  have hmax : maxScan = 65536 := rfl
  have hmax' : maxNonComment = 1024 := rfl
  rw [show T + 1 = p.length + ((T - p.length) + 1) by rw [← hT]; simp; omega]
  rw [prescan_filler U T p _ 0 _ hp (by omega) (by omega)]
  have e0 : ascii c%"<meta charset=\"" ++ label ++ ascii c%"\">" ++ rest =
      0x3C :: (ascii c%"meta charset=\"" ++ label ++ ascii c%"\">" ++ rest) := by simp [ascii]
  rw [e0, prescanF]
  dsimp only
  rw [if_neg (by simp only [Bool.or_eq_true, decide_eq_true_eq, not_or]; omega), if_neg (by decide), if_neg (by simp [ascii]), if_neg (by simp [ascii]),
    if_neg (by simp [ascii, bAlpha, bLower]), if_neg (by simp [ascii, bAlpha, bLower])]
  have hdrop : (ascii c%"meta charset=\"" ++ label ++ ascii c%"\">" ++ rest).dropWhile bAlpha =
      0x20 :: (ascii c%"charset=\"" ++ (label ++ 0x22 :: 0x3E :: rest)) := by simp [ascii, bAlpha, bLower]
  rw [hdrop]
  have hcap : ∀ n, ¬ (T - (n + 1) ≥ maxScan) := by intro n; omega
  have hfuel : ∃ f, (ascii c%"meta charset=\"" ++ label ++ ascii c%"\">" ++ rest).length + 1 = f + 1 + 1 + 1 := ⟨_, by simp [ascii]; rfl⟩
  obtain ⟨f, hf⟩ := hfuel
  rw [hf, metaLoop, if_neg (hcap _), if_neg (by decide), if_neg (by decide), if_pos (by decide)]
  rw [show ascii c%"charset=\"" ++ (label ++ 0x22 :: 0x3E :: rest) = 0x63 :: (ascii c%"harset=\"" ++ (label ++ 0x22 :: 0x3E :: rest)) from by simp [ascii]]
  rw [metaLoop, if_neg (hcap _), if_neg (by decide), if_neg (by decide), if_neg (by decide)]
  dsimp only
  have hname : ((0x63 :: (ascii c%"harset=\"" ++ (label ++ 0x22 :: 0x3E :: rest))).takeWhile fun b =>
      !(bSpace b || decide (b = 0x3D) || decide (b = 0x3E) || decide (b = 0x2F) || decide (b = 0x3C))).map bLower = ascii c%"charset" := by
    simp [ascii, bSpace, bLower]
  have hrest : ((0x63 :: (ascii c%"harset=\"" ++ (label ++ 0x22 :: 0x3E :: rest))).dropWhile fun b =>
      !(bSpace b || decide (b = 0x3D) || decide (b = 0x3E) || decide (b = 0x2F) || decide (b = 0x3C))).dropWhile bSpace =
      0x3D :: 0x22 :: (label ++ 0x22 :: 0x3E :: rest) := by
    simp [ascii, bSpace]
  have htk : ∀ (l : Bytes), 0x22 ∉ l → (l ++ 0x22 :: 0x3E :: rest).takeWhile (fun x => decide (x ≠ 0x22)) = l ∧
      (l ++ 0x22 :: 0x3E :: rest).dropWhile (fun x => decide (x ≠ 0x22)) = 0x22 :: 0x3E :: rest := by
    intro l
    induction l with
    | nil => intro _; simp
    | cons a l ih =>
      intro h
      simp only [List.mem_cons, not_or] at h
      have := ih h.2
      have ha : a ≠ 0x22 := fun e => h.1 e.symm
      simp only [List.cons_append, List.takeWhile_cons, List.dropWhile_cons, ha, ne_eq, not_false_eq_true, decide_true, if_true]
      exact ⟨by rw [this.1], this.2⟩
  have hval : metaValue (0x3D :: 0x22 :: (label ++ 0x22 :: 0x3E :: rest)) = some (some (some label, 0x3E :: rest)) := by
    rw [metaValue]
    rw [show (0x22 :: (label ++ 0x22 :: 0x3E :: rest) : Bytes).dropWhile bSpace = 0x22 :: (label ++ 0x22 :: 0x3E :: rest) from by simp [bSpace]]
    dsimp only
    rw [if_pos (by decide), if_pos (by simp), (htk label hq).1, (htk label hq).2]
    rfl
  rw [hname, hrest, hval]
  dsimp only
  rw [metaLoop, if_neg (hcap _), if_pos rfl]
  have hde : metaDeclares U (MetaAttrs.set {} (ascii c%"charset") (some label)) = some e := by
    unfold MetaAttrs.set metaDeclares
    rw [if_pos rfl]
    dsimp only [Option.map_some]
    rw [if_neg (by simpa using hne), he]
  dsimp only
  rw [hde]

example : prescan Uni.sample (ascii c%"<!-- <meta charset=utf-8> --><meta http-equiv=Content-Type content='text/html; charset=ISO-8859-2'>") =
    some c%"iso-8859-2" := by decide
example : prescan Uni.sample (ascii c%"x<meta charset=\" Latin1 \">") = some c%"windows-1252" := by decide

end JH
