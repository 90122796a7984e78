import Verif.Lemmas.SelParsed
/-! Queries. -/
namespace JH
open Spec

variable {U : Uni} {h : Heap} {lim : SelLimits}

theorem under_kids (n : Nat) : queryKids h n = under h n := rfl

theorem under_parent (w : WF h) (hh : Host h) {n m : Nat} (hm : m ∈ under h n) : (h.obj m).parent = some n := by
  unfold under at hm
  rcases List.mem_append.1 hm with hm | hm
  · split at hm
    · exact hh n m (Option.mem_toList.1 hm)
    · cases hm
  · exact w.back n m hm

theorem under_nodup (w : WF h) (n : Nat) : (under h n).Nodup := by
  unfold under
  rw [List.nodup_append]
  refine ⟨?_, w.once n, ?_⟩
  · split
    · cases (h.obj n).content <;> simp
    · simp
  · rintro a ha b hb rfl
    split at ha
    · exact w.nofrag n a hb (w.tpl n a (Option.mem_toList.1 ha)).2
    · cases ha

/-- Every list has a preorder. -/
theorem preorder_exists (w : WF h) (hh : Host h) (l : List Nat) : ∃ out, Preorder h l out := by
  obtain ⟨r, hr⟩ := w.rank
  have list : ∀ (l : List Nat), (∀ n ∈ l, ∃ a, Preorder h (under h n) a) → ∃ out, Preorder h l out := by
    intro l
    induction l with
    | nil => intro _; exact ⟨[], .nil⟩
    | cons n l ih =>
      intro hl
      obtain ⟨a, ha⟩ := hl n List.mem_cons_self
      obtain ⟨b, hb⟩ := ih fun m hm => hl m (List.mem_cons_of_mem _ hm)
      exact ⟨_, .cons ha hb⟩
  have main : ∀ k a, r a ≤ k → ∃ out, Preorder h (under h a) out := by
    intro k
    induction k with
    | zero => intro a ha; exact list _ fun n hn => by have := hr n a (under_parent w hh hn); omega
    | succ k ih => intro a ha; exact list _ fun n hn => ih n (by have := hr n a (under_parent w hh hn); omega)
  exact list l fun n _ => main (r n) n (Nat.le_refl _)

theorem preorder_append {l m a b : List Nat} (ha : Preorder h l a) (hb : Preorder h m b) : Preorder h (l ++ m) (a ++ b) := by
  induction ha with
  | nil => exact hb
  | cons h1 _ _ ih =>
    have := Preorder.cons h1 ih
    simpa [List.append_assoc] using this

theorem preorder_unique {l a b : List Nat} (ha : Preorder h l a) (hb : Preorder h l b) : a = b := by
  induction ha generalizing b with
  | nil => cases hb; rfl
  | cons _ _ ih1 ih2 =>
    cases hb with
    | cons h3 h4 => rw [ih1 h3, ih2 h4]

/-- Everything listed is in the list or below something in it. -/
theorem preorder_mem (w : WF h) (hh : Host h) {l a : List Nat} (ha : Preorder h l a) : ∀ x ∈ a, ∃ m ∈ l, x = m ∨ Above h m x := by
  induction ha with
  | nil => nofun
  | @cons n l a b _ _ ih1 ih2 =>
    intro x hx
    rcases List.mem_append.1 hx with hx | hx
    · rcases List.mem_cons.1 hx with rfl | hx
      · exact ⟨x, by simp, .inl rfl⟩
      · obtain ⟨m, hm, hx⟩ := ih1 x hx
        have hp : Above h n m := .parent (under_parent w hh hm)
        refine ⟨n, by simp, .inr ?_⟩
        rcases hx with rfl | hx
        · exact hp
        · exact above_trans hp hx
    · obtain ⟨m, hm, hx⟩ := ih2 x hx
      exact ⟨m, by simp [hm], hx⟩

/-- Two ancestors of the same node are comparable. -/
theorem above_linear {a b c : Nat} (ha : Above h a c) (hb : Above h b c) : a = b ∨ Above h a b ∨ Above h b a := by
  induction ha with
  | parent h1 =>
    cases hb with
    | parent h2 => rw [h1] at h2; cases h2; exact .inl rfl
    | up h2 h3 => rw [h1] at h2; cases h2; exact .inr (.inr h3)
  | up h1 h2 ih =>
    cases hb with
    | parent h3 => rw [h1] at h3; cases h3; exact .inr (.inl h2)
    | up h3 h4 => rw [h1] at h3; cases h3; exact ih h4

/-- No two nodes of the list are one above the other. -/
def Apart (h : Heap) (l : List Nat) : Prop := l.Nodup ∧ ∀ x ∈ l, ∀ y ∈ l, ¬ Above h x y

theorem under_apart (w : WF h) (hh : Host h) (n : Nat) : Apart h (under h n) := by
  refine ⟨under_nodup w n, ?_⟩
  intro x hx y hy ha
  have h1 := under_parent w hh hx
  have h2 := under_parent w hh hy
  have h3 : x = n ∨ Above h x n := by
    cases ha with
    | parent h4 => rw [h2] at h4; cases h4; exact .inl rfl
    | up h4 h5 => rw [h2] at h4; cases h4; exact .inr h5
  rcases h3 with rfl | h3
  · exact above_irrefl w x (.parent h1)
  · exact above_irrefl w n (above_trans (.parent h1) h3)

theorem preorder_nodup (w : WF h) (hh : Host h) {l a : List Nat} (ha : Preorder h l a) (hl : Apart h l) : a.Nodup := by
  induction ha with
  | nil => simp
  | @cons n l a b h1 h2 ih1 ih2 =>
    obtain ⟨hnd, hap⟩ := hl
    rw [List.nodup_cons] at hnd
    have below : ∀ x ∈ a, Above h n x := by
      intro x hx
      obtain ⟨m, hm, hx⟩ := preorder_mem w hh h1 x hx
      have hp : Above h n m := .parent (under_parent w hh hm)
      rcases hx with rfl | hx
      · exact hp
      · exact above_trans hp hx
    rw [List.nodup_append, List.nodup_cons]
    refine ⟨⟨fun hn => above_irrefl w n (below n hn), ih1 (under_apart w hh n)⟩, ih2 ⟨hnd.2, fun x hx y hy => hap x (by simp [hx]) y (by simp [hy])⟩, ?_⟩
    rintro x hx y hy rfl
    obtain ⟨m, hm, hm'⟩ := preorder_mem w hh h2 x hy
    have hne : n ≠ m := by rintro rfl; exact hnd.1 hm
    have hnx : x = n ∨ Above h n x := by
      rcases List.mem_cons.1 hx with rfl | hx
      · exact .inl rfl
      · exact .inr (below x hx)
    have n1 := hap n (by simp) m (by simp [hm])
    have n2 := hap m (by simp [hm]) n (by simp)
    rcases hnx with rfl | h3
    · rcases hm' with rfl | h4
      · exact hne rfl
      · exact n2 h4
    · rcases hm' with rfl | h4
      · exact n1 h3
      · rcases above_linear h3 h4 with h5 | h5 | h5
        · exact hne h5
        · exact n1 h5
        · exact n2 h5

/-- A list filtered by answers that satisfy `R`. -/
inductive Chosen (R : Nat → Bool → Prop) : List Nat → List Nat → Prop
  | nil : Chosen R [] []
  | keep {n : Nat} {l s : List Nat} : R n true → Chosen R l s → Chosen R (n :: l) (n :: s)
  | drop {n : Nat} {l s : List Nat} : R n false → Chosen R l s → Chosen R (n :: l) s

theorem chosen_sub {R : Nat → Bool → Prop} {l s : List Nat} (hc : Chosen R l s) : s.Sublist l := by
  induction hc with
  | nil => exact .slnil
  | keep _ _ ih => exact .cons_cons _ ih
  | drop _ _ ih => exact .cons _ ih

theorem chosen_sound {R : Nat → Bool → Prop} {l s : List Nat} (hc : Chosen R l s) : ∀ n ∈ s, R n true := by
  induction hc with
  | nil => nofun
  | keep h1 _ ih =>
    intro m hm
    rcases List.mem_cons.1 hm with rfl | hm
    · exact h1
    · exact ih m hm
  | drop _ _ ih => exact ih

theorem chosen_exact {P : Nat → Prop} {l s : List Nat} (hc : Chosen (fun n b => b = true ↔ P n) l s) (hn : l.Nodup) : ∀ n ∈ l, n ∈ s ↔ P n := by
  induction hc with
  | nil => nofun
  | @keep x l s h1 h2 ih =>
    rw [List.nodup_cons] at hn
    intro m hm
    rcases List.mem_cons.1 hm with rfl | hm'
    · simp [h1.1 rfl]
    · have : m ≠ x := by intro e; rw [e] at hm'; exact hn.1 hm'
      simp [this, ih hn.2 m hm']
  | @drop x l s h1 h2 ih =>
    rw [List.nodup_cons] at hn
    intro m hm
    rcases List.mem_cons.1 hm with rfl | hm
    · exact ⟨fun hs => absurd ((chosen_sub h2).subset hs) hn.1, fun hP => absurd (h1.2 hP) nofun⟩
    · exact ih hn.2 m hm

/-- The loop goes through the preorder. -/
theorem queryLoop_ok {I : SCtx → Prop} {E : SErr → Prop} (hI : Steps I) (he : E .steps) {R : Nat → Bool → Prop} (test : Nat → SM Bool)
    (ht : ∀ n, Ok I (test n) (R n) E) (f : Nat) : ∀ stack visited acc l, Preorder h stack l → l.Nodup → (∀ x ∈ l, x ∉ visited) →
    Ok I (queryLoop h test f stack visited acc) (fun r => ∃ s, Chosen R l s ∧ r = acc ++ s) E := by
  induction f with
  | zero => intro st v a l _ _ _; exact Ok.fail he
  | succ f ih =>
    intro st v a l hp hn hv
    cases hp with
    | nil => exact Ok.pure ⟨[], .nil, by simp⟩
    | @cons n st x y h1 h2 =>
      rw [queryLoop]
      refine Ok.step hI he ?_
      have hnv : v.contains n = false := by
        have := hv n (by simp)
        simpa using this
      rw [hnv]
      refine Ok.bind (ht n) ?_
      intro b hb
      have hn' : (n :: (x ++ y)).Nodup := by simpa using hn
      rw [List.nodup_cons] at hn'
      refine (ih (queryKids h n ++ st) (n :: v) _ (x ++ y) (preorder_append h1 h2) hn'.2 ?_).mono ?_
      · intro z hz hzv
        rcases List.mem_cons.1 hzv with rfl | hzv
        · exact hn'.1 hz
        · exact hv z (by simp only [List.cons_append, List.mem_cons]; exact .inr hz) hzv
      · rintro r ⟨s, hs, rfl⟩
        cases b with
        | true => exact ⟨n :: s, .keep hb hs, by simp⟩
        | false => exact ⟨s, .drop hb hs, by simp⟩

theorem queryFrom_ok (w : WF h) (hh : Host h) {I : SCtx → Prop} {E : SErr → Prop} (hI : Steps I) (he : E .steps) {R : Nat → Bool → Prop} (test : Nat → SM Bool)
    (ht : ∀ n, Ok I (test n) (R n) E) (root : Nat) :
    Ok I (queryFrom h test root) (fun r => ∃ l, Preorder h (under h root) l ∧ l.Nodup ∧ Chosen R l r) E := by
  obtain ⟨l, hl⟩ := preorder_exists w hh (under h root)
  have hnd := preorder_nodup w hh hl (under_apart w hh root)
  refine Ok.bind (Ok.get (Q := fun _ => True) fun _ _ => trivial) ?_
  intro s _
  refine (queryLoop_ok hI he test ht (s + 1) (queryKids h root) [root] [] l hl hnd ?_).mono ?_
  · intro x hx hxr
    rw [List.mem_singleton] at hxr
    subst hxr
    obtain ⟨m, hm, hx⟩ := preorder_mem w hh hl x hx
    have hp : Above h x m := .parent (under_parent w hh hm)
    rcases hx with rfl | hx
    · exact above_irrefl w x hp
    · exact above_irrefl w x (above_trans hp hx)
  · rintro r ⟨s, hs, rfl⟩
    exact ⟨l, hl, hnd, by simpa using hs⟩

/-! ### The tests -/

theorem allowsNon_iff (x : Complex) : x.allowsNon = true ↔ ∃ c, PartOf c x ∧ ∃ arg i, Simple.pseudo c%"comment" arg i ∈ c.simples := by
  have one : ∀ c : Compound, c.simples.any Simple.isComment = true ↔ ∃ arg i, Simple.pseudo c%"comment" arg i ∈ c.simples := by
    intro c
    rw [List.any_eq_true]
    constructor
    · rintro ⟨s, hs, hc⟩
      cases s with
      | pseudo name arg i =>
        have : name = c%"comment" := by simpa [Simple.isComment] using hc
        subst this
        exact ⟨arg, i, hs⟩
      | _ => exact absurd hc (by simp [Simple.isComment])
    · rintro ⟨arg, i, hs⟩
      exact ⟨_, hs, by simp [Simple.isComment]⟩
  induction x using complex_ind with
  | h1 c =>
    rw [Complex.allowsNon, one]
    constructor
    · intro hx; exact ⟨c, .one, hx⟩
    · rintro ⟨d, hd, hx⟩; cases hd; exact hx
  | h2 l o c ih =>
    rw [Complex.allowsNon, Bool.or_eq_true, one]
    constructor
    · rintro (hx | hx)
      · obtain ⟨d, hd, hx⟩ := ih.1 hx
        exact ⟨d, .left hd, hx⟩
      · exact ⟨c, .last, hx⟩
    · rintro ⟨d, hd, hx⟩
      cases hd with
      | last => exact .inr hx
      | left hd => exact .inl (ih.2 ⟨d, hd, hx⟩)

theorem allows_iff (sel : Sel) : allowsNonElements sel = true ↔ AsksComments sel := by
  unfold allowsNonElements AsksComments
  rw [List.any_eq_true]
  constructor
  · rintro ⟨x, hx, ha⟩; exact ⟨x, hx, (allowsNon_iff x).1 ha⟩
  · rintro ⟨x, hx, ha⟩; exact ⟨x, hx, (allowsNon_iff x).2 ha⟩


/-- All the compounds of a parsed selector are fine. -/
theorem parsed_parts {s : Str} {sel : Sel} (hs : parseSelector U lim s = some sel) {E : SErr → Prop} (he : E .unsupported ∧ E .noArg) :
    ∀ C ∈ selParts sel, PartOk U (· ∈ selParts sel) E C := fun C hC =>
  ⟨hC, ((parseSelector_got hs).2.1 C hC).low, fun _ _ => .inr he⟩

theorem queryTest_of {I : SCtx → Prop} {E : SErr → Prop} {sel : Sel} {n : Nat} {P : Prop}
    (hm : Ok I (matchSel U h (lim.maxMatchDepth + 1) sel n) (fun b => b = true ↔ P) E) :
    Ok I (queryTest U lim h sel n) (fun b => b = true ↔ (Elem h n ∨ AsksComments sel) ∧ P) E := by
  unfold queryTest
  by_cases ha : (allowsNonElements sel || !isHash (h.obj n).name) = true
  · rw [if_pos ha]
    rw [Bool.or_eq_true, allows_iff, Bool.not_eq_true', isHash_false] at ha
    exact hm.iff ⟨fun hp => ⟨ha.symm, hp⟩, fun hp => hp.2⟩
  · rw [if_neg ha]
    rw [Bool.or_eq_true, allows_iff, Bool.not_eq_true', isHash_false] at ha
    exact Ok.pure ⟨nofun, fun hp => absurd hp.1.symm ha⟩

theorem queryTest_sound {I : SCtx → Prop} {E : SErr → Prop} {sel : Sel} {n : Nat} {P : Prop}
    (hm : Ok I (matchSel U h (lim.maxMatchDepth + 1) sel n) (fun b => b = true → P) E) :
    Ok I (queryTest U lim h sel n) (fun b => b = true → (Elem h n ∨ AsksComments sel) ∧ P) E := by
  unfold queryTest
  by_cases ha : (allowsNonElements sel || !isHash (h.obj n).name) = true
  · rw [if_pos ha]
    rw [Bool.or_eq_true, allows_iff, Bool.not_eq_true', isHash_false] at ha
    exact hm.mono fun b hb e => ⟨ha.symm, hb e⟩
  · rw [if_neg ha]
    exact Ok.pure nofun

/-! ### The fast path for tag names -/

theorem ascii_of_le {c : Char} (h : ¬ 127 < c.toNat) : isAscii c = true := by
  unfold isAscii
  simp
  omega

theorem nameStart_of_alnum {c : Char} (h : (U.isAlnum c || decide (c = '_') || decide (c = '-') || decide (127 < c.toNat)) = true) : isNameChar U c = true := by
  unfold isNameChar isNameStart
  by_cases hc : 127 < c.toNat
  · simp [hc]
  · have ha := ascii_of_le hc
    rw [U.isAlnum_ascii c ha] at h
    rw [U.isAlpha_ascii c ha, U.isDigit_ascii c ha]
    simp only [Bool.or_eq_true] at h ⊢
    rcases h with ((h | h) | h) | h
    · rcases h with h | h
      · simp [h]
      · simp [h]
    · simp [h]
    · simp [h]
    · simp [h]

/-- No character with a meaning of its own starts a name. -/
theorem nameStart_plain {c : Char} (h : isNameStart U c = true) : isHtmlSpace c = false ∧ combOf c = none ∧ c ≠ '*' ∧ c ≠ '#' ∧ c ≠ '.' ∧ c ≠ '[' ∧ c ≠ ',' ∧ c ≠ ':' := by
  unfold isNameStart at h
  have key : ∀ d : Char, ¬ 127 < d.toNat → isAsciiAlpha d = false → d ≠ '_' → d ≠ '-' → c ≠ d := by
    rintro d h1 h2 h3 h4 rfl
    rw [U.isAlpha_ascii c (ascii_of_le h1), h2] at h
    simp [h1, h3, h4] at h
  refine ⟨?_, ?_, key _ (by decide) (by decide) (by decide) (by decide), key _ (by decide) (by decide) (by decide) (by decide),
    key _ (by decide) (by decide) (by decide) (by decide), key _ (by decide) (by decide) (by decide) (by decide),
    key _ (by decide) (by decide) (by decide) (by decide), key _ (by decide) (by decide) (by decide) (by decide)⟩
  · rw [Bool.eq_false_iff]
    intro hs
    unfold isHtmlSpace at hs
    simp only [Bool.or_eq_true, decide_eq_true_eq] at hs
    rcases hs with (((hs | hs) | hs) | hs) | hs <;> exact key _ (by decide) (by decide) (by decide) (by decide) hs
  · unfold combOf
    rw [if_neg (key _ (by decide) (by decide) (by decide) (by decide)), if_neg (key _ (by decide) (by decide) (by decide) (by decide)),
      if_neg (key _ (by decide) (by decide) (by decide) (by decide))]

theorem span_loop {α : Type} (p : α → Bool) (l acc : List α) : List.span.loop p l acc = (acc.reverse ++ l.takeWhile p, l.dropWhile p) := by
  induction l generalizing acc with
  | nil => simp [List.span.loop]
  | cons a l ih =>
    rw [List.span.loop.eq_def]
    by_cases ha : p a = true
    · simp [ha, ih]
    · simp [ha]

theorem span_take {α : Type} (p : α → Bool) (l : List α) : l.span p = (l.takeWhile p, l.dropWhile p) := by
  rw [List.span, span_loop]; rfl

theorem readName_all {s : Str} (h : ∀ c ∈ s, isNameChar U c = true) : readName U s = (s, []) := by
  unfold readName
  rw [span_take]
  induction s with
  | nil => rfl
  | cons c s ih =>
    have hc := h c (by simp)
    have := ih fun d hd => h d (by simp [hd])
    simp only [Prod.mk.injEq] at this
    simp [hc, this.1, this.2]

theorem tokenize_simple {s : Str} (h : isSimpleTag U s = true) : tokenize U s = some [.tag (U.lower s), .eof] := by
  unfold isSimpleTag at h
  cases s with
  | nil => cases h
  | cons c cs =>
    dsimp only at h
    rw [Bool.and_eq_true, List.all_eq_true] at h
    obtain ⟨h1, h2, h3, h4, h5, h6, h7, h8⟩ := nameStart_plain h.1
    have hr : readName U (c :: cs) = (c :: cs, []) := readName_all fun d hd => by
      rcases List.mem_cons.1 hd with rfl | hd
      · unfold isNameChar; rw [h.1]; rfl
      · exact nameStart_of_alnum (h.2 d hd)
    have hm : tokMain U c cs = some ([.tag (U.lower (c :: cs))], []) := by
      unfold tokMain
      rw [if_neg h3, if_neg h4, if_neg h5, if_neg h6, if_neg h7, if_neg h8, if_pos h.1, hr]
    have hst : tokStep U false false c cs = some ([.tag (U.lower (c :: cs))], false, []) := by
      unfold tokStep
      rw [h1, h2, hm]
      rfl
    unfold tokenize
    rw [List.length_cons, tokLoop, hst]
    rfl

theorem parse_simple {s : Str} (hst : stripP U.isSpace s = s) (h : isSimpleTag U s = true) {sel : Sel} (hp : parseSelector U lim s = some sel) :
    sel = [.one (.mk 0 [.tag (U.lower s)])] := by
  unfold parseSelector at hp
  rw [hst] at hp
  dsimp only at hp
  split at hp
  · cases hp
  · split at hp
    · cases hp
    · rw [parseSelAt, tokenize_simple h] at hp
      dsimp only at hp
      by_cases hc : lim.maxCompound ≤ 0
      · have : parseTokens U lim (parseSelAt U lim lim.maxParseDepth) 0 [.tag (U.lower s), .eof] = none := by
          simp [parseTokens, parseComplex, parseCompound, parseSimples, parseSimple, hc]
        rw [this] at hp
        cases hp
      · have : parseTokens U lim (parseSelAt U lim lim.maxParseDepth) 0 [.tag (U.lower s), .eof] = some ([.one (.mk 0 [.tag (U.lower s)])], 1) := by
          simp [parseTokens, parseComplex, parseCompound, parseSimples, parseSimple, hc, parseParts, parseList]
        rw [this] at hp
        cases hp
        rfl

theorem tagTest_exact {I : SCtx → Prop} {E : SErr → Prop} (unq : Str → Str) (t : Str) (k : Nat) (n : Nat) :
    Ok I (tagTest U h t n) (fun b => b = true ↔ (Elem h n ∨ AsksComments [.one (.mk k [.tag t])]) ∧ satSel U unq h [.one (.mk k [.tag t])] n) E := by
  have hno : ¬ AsksComments [.one (.mk k [.tag t])] := by
    rw [← allows_iff]
    simp [allowsNonElements, Complex.allowsNon, Compound.simples, Simple.isComment]
  refine Ok.pure ?_
  rw [Bool.and_eq_true, Bool.not_eq_true', isHash_false, Bool.or_eq_true, decide_eq_true_eq, decide_eq_true_eq]
  simp only [satSel, satComplex, satCompound, satSimples, satSimple, hno, or_false, and_true]
  exact ⟨fun hx => ⟨hx.1, hx⟩, fun hx => hx.2⟩

end JH
