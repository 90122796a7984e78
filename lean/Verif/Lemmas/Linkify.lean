import Verif.Model.Linkify
import Verif.Lemmas.Strings
import Verif.Spec.Linkify

/-! Lemmas about the link finder: the regular expression, trimming, offsets. -/
deriving instance DecidableEq for Except

namespace JH

/-! ### Matches are suffixes -/

theorem repEnds_suffix (f : Str → List Str) (hf : ∀ s, ∀ t ∈ f s, t <:+ s) :
    ∀ (n : Nat) (s : Str), ∀ t ∈ repEnds f n s, t <:+ s := by
  intro n
  induction n with
  | zero => intro s t h; simp only [repEnds, List.mem_singleton] at h; exact h ▸ List.suffix_refl _
  | succ n ih =>
    intro s t h
    simp only [repEnds, List.mem_append, List.mem_flatMap, List.mem_filter, List.mem_singleton] at h
    rcases h with ⟨u, hu, ht⟩ | rfl
    · exact (ih u t ht).trans (hf s u hu.1)
    · exact List.suffix_refl _

theorem ends_suffix (r : Re) : ∀ s, ∀ t ∈ r.ends s, t <:+ s := by
  induction r with
  | chr p =>
    intro s t h
    cases s with
    | nil => simp [Re.ends] at h
    | cons c s =>
      rw [Re.ends] at h
      split at h
      · simp only [List.mem_singleton] at h; exact h ▸ List.suffix_cons c s
      · simp at h
  | seq a b iha ihb =>
    intro s t h
    simp only [Re.ends, List.mem_flatMap] at h
    obtain ⟨u, hu, ht⟩ := h
    exact (ihb u t ht).trans (iha s u hu)
  | alt a b iha ihb =>
    intro s t h
    simp only [Re.ends, List.mem_append] at h
    exact h.elim (iha s t) (ihb s t)
  | star a ih => intro s t h; rw [Re.ends] at h; exact repEnds_suffix _ ih _ s t h
  | upTo n a ih => intro s t h; rw [Re.ends] at h; exact repEnds_suffix _ ih _ s t h

/-! ### Candidates are slices -/

/-- The candidates found from a position: each is where it says in the text, and they follow each other. -/
theorem candsGo_slices (U : Uni) (text : Str) : ∀ (n pos : Nat) (s : Str), ('\n' :: text).drop pos = s →
    (∀ c ∈ candsGo U n pos s, pos ≤ c.1 ∧ c.2 <+: text.drop c.1 ∧ c.1 + c.2.length ≤ text.length) ∧
    (candsGo U n pos s).Pairwise (fun a b => a.1 + a.2.length < b.1) := by
  intro n
  induction n with
  | zero => intro pos s _; simp [candsGo]
  | succ n ih =>
    intro pos s hs
    cases s with
    | nil => simp [candsGo]
    | cons b t =>
      have ht : text.drop pos = t := by
        have := congrArg (List.drop 1) hs
        rw [List.drop_drop] at this
        simpa [Nat.add_comm] using this
      have hp : pos ≤ text.length := by
        have := congrArg List.length hs
        simp only [List.length_drop, List.length_cons] at this
        omega
      have hnext : ('\n' :: text).drop (pos + 1) = t := by simpa using ht
      rw [candsGo]
      generalize hm : (if boundaryC b then ((candRe U).ends t).head? else none) = o
      cases o with
      | none =>
        dsimp only
        obtain ⟨h1, h2⟩ := ih (pos + 1) t hnext
        exact ⟨fun c hc => ⟨by have := (h1 c hc).1; omega, (h1 c hc).2⟩, h2⟩
      | some r =>
        dsimp only
        have hr : r <:+ t := by
          split at hm
          · exact ends_suffix _ _ _ (List.mem_of_head? hm)
          · cases hm
        obtain ⟨raw, hraw⟩ := hr
        have htl : t.length = raw.length + r.length := by rw [← hraw]; simp
        have htake : t.take (t.length - r.length) = raw := by
          rw [htl, Nat.add_sub_cancel, ← hraw, List.take_left']; rfl
        have hdrop : ('\n' :: text).drop (pos + 1 + (t.length - r.length)) = r := by
          rw [← List.drop_drop, hnext, htl, Nat.add_sub_cancel, ← hraw, List.drop_left']; rfl
        obtain ⟨h1, h2⟩ := ih _ r hdrop
        rw [htake]
        have hl : t.length = text.length - pos := by rw [← ht]; simp
        have hk : t.length - r.length = raw.length := by omega
        rw [hk] at h1 h2 ⊢
        refine ⟨?_, ?_⟩
        · intro c hc
          rcases List.mem_cons.1 hc with rfl | hc
          · refine ⟨Nat.le_refl _, ?_, ?_⟩
            · rw [ht, ← hraw]; exact List.prefix_append _ _
            · show pos + raw.length ≤ text.length; omega
          · have := h1 c hc
            exact ⟨by omega, this.2⟩
        · refine List.pairwise_cons.2 ⟨?_, h2⟩
          intro c hc
          have := (h1 c hc).1
          show pos + raw.length < c.1
          omega

theorem cands_slices (U : Uni) (text : Str) :
    (∀ c ∈ cands U text, c.2 <+: text.drop c.1 ∧ c.1 + c.2.length ≤ text.length) ∧
    (cands U text).Pairwise (fun a b => a.1 + a.2.length < b.1) := by
  have := candsGo_slices U text (text.length + 1) 0 ('\n' :: text) rfl
  exact ⟨fun c hc => (this.1 c hc).2, this.2⟩

/-! ### Trimming gives prefixes -/

theorem stripWrapping_prefix (raw : Str) : (stripWrapping raw).1 <+: raw.drop (stripWrapping raw).2 := by
  rw [stripWrapping]
  split
  · exact List.dropLast_prefix _
  · simp

theorem dropQuotes_suffix (all : Str) : ∀ (r : Str) (a b : Nat), dropQuotes all a b r <:+ r := by
  intro r
  induction r with
  | nil => intro a b; rw [dropQuotes]; exact List.suffix_refl _; simp; simp
  | cons c r ih =>
    intro a b
    rw [dropQuotes.eq_def]
    split
    · rename_i heq
      cases heq
      split
      · exact (ih _ _).trans (List.suffix_cons _ _)
      · exact List.suffix_refl _
    · rename_i heq
      cases heq
      split
      · exact (ih _ _).trans (List.suffix_cons _ _)
      · exact List.suffix_refl _
    · exact List.suffix_refl _

theorem dropClosers_suffix (all : Str) : ∀ (r gone : Str), dropClosers all gone r <:+ r := by
  intro r
  induction r with
  | nil => intro g; simp [dropClosers]
  | cons c r ih =>
    intro g
    rw [dropClosers]
    split
    · exact List.suffix_refl _
    · split
      · exact (ih _).trans (List.suffix_cons _ _)
      · exact List.suffix_refl _

theorem trimTrailing_prefix (c : Str) : trimTrailing c <+: c := by
  have h1 : dropPunct c.reverse <:+ c.reverse := List.dropWhile_suffix _
  have h := ((dropClosers_suffix (dropPunct c.reverse) (dropQuotes (dropPunct c.reverse) 0 0 (dropPunct c.reverse)) []).trans
    (dropQuotes_suffix (dropPunct c.reverse) _ 0 0)).trans h1
  have := List.reverse_prefix.2 h
  rw [List.reverse_reverse] at this
  exact this

/-- The text of a link stands in the text at its offset. -/
theorem trimCand_prefix (U : Uni) (text : Str) (start : Nat) (stripped : Str) (h : stripped <+: text.drop start)
    (s : Nat) (c : Str) (hc : trimCand U text start stripped = some (s, c)) : c <+: text.drop s ∧ c ≠ [] := by
  rw [trimCand] at hc
  dsimp only at hc
  generalize hc1 : trimTrailing stripped = c1 at hc
  have h1 : c1 <+: text.drop start := hc1 ▸ (trimTrailing_prefix stripped).trans h
  split at hc
  · cases hc
  generalize hc2 : (if hasScheme3 (U.lower c1) then
        match find? c%")[" c1 with
        | some k => trimTrailing (c1.take k)
        | none => c1
      else c1) = c2 at hc
  have h2 : c2 <+: text.drop start := by
    rw [← hc2]
    split
    · split
      · exact ((trimTrailing_prefix _).trans (List.take_prefix _ _)).trans h1
      · exact h1
    · exact h1
  split at hc
  · cases hc
  · rename_i hne
    split at hc
    · split at hc
      · cases hc
      · rename_i hne'
        simp only [Option.some.injEq, Prod.mk.injEq] at hc
        obtain ⟨rfl, rfl⟩ := hc
        refine ⟨?_, by simpa using hne'⟩
        obtain ⟨r, hr⟩ := h2
        have : text.drop (start + 1) = (text.drop start).drop 1 := by rw [List.drop_drop]
        rw [this, ← hr]
        cases c2 with
        | nil => simp at hne
        | cons x c2 => exact ⟨r, by simp⟩
    · simp only [Option.some.injEq, Prod.mk.injEq] at hc
      obtain ⟨rfl, rfl⟩ := hc
      exact ⟨h2, by simpa using hne⟩

/-- What is known of a found link. -/
theorem linkOf_some (E : LinkEnv) (cfg : LinkCfg) (text : Str) (c : Nat × Str) (hc : c.2 <+: text.drop c.1)
    (m : LinkMatch) (h : linkOf E cfg text c = .ok (some m)) :
    m.text <+: text.drop m.start ∧ m.text ≠ [] ∧ m.stop = m.start + m.text.length ∧
      refused E.U cfg text m.start m.text = .ok false ∧ m.href = punycodeHref E (hrefFor E.U m.text).1 ∧
      m.email = (hrefFor E.U m.text).2 ∧ trimCand E.U text (c.1 + (stripWrapping c.2).2) (stripWrapping c.2).1 = some (m.start, m.text) := by
  rw [linkOf] at h
  dsimp only at h
  have hsw : (stripWrapping c.2).1 <+: text.drop (c.1 + (stripWrapping c.2).2) := by
    refine (stripWrapping_prefix c.2).trans ?_
    obtain ⟨r, hr⟩ := hc
    rw [← List.drop_drop, ← hr, List.drop_append]
    exact List.prefix_append _ _
  generalize ht : trimCand E.U text (c.1 + (stripWrapping c.2).2) (stripWrapping c.2).1 = o at h
  cases o with
  | none => simp at h
  | some p =>
    obtain ⟨s, cd⟩ := p
    dsimp only at h
    have hp := trimCand_prefix E.U text _ _ hsw s cd ht
    generalize hr : refused E.U cfg text s cd = rr at h
    cases rr with
    | error e => simp at h
    | ok b =>
      cases b with
      | true => simp at h
      | false =>
        simp only [Except.ok.injEq, Option.some.injEq] at h
        subst h
        exact ⟨hp.1, hp.2, rfl, hr, rfl, rfl, rfl⟩

theorem linksOf_mem (E : LinkEnv) (cfg : LinkCfg) (text : Str) : ∀ (cs : List (Nat × Str)) (ms : List LinkMatch),
    linksOf E cfg text cs = .ok ms → ∀ m ∈ ms, ∃ c ∈ cs, linkOf E cfg text c = .ok (some m) := by
  intro cs
  induction cs with
  | nil => intro ms h m hm; simp only [linksOf, Except.ok.injEq] at h; subst h; simp at hm
  | cons c cs ih =>
    intro ms h m hm
    rw [linksOf] at h
    generalize ho : linkOf E cfg text c = o at h
    cases o with
    | error e => simp at h
    | ok o =>
      dsimp only at h
      generalize hr : linksOf E cfg text cs = r at h
      cases r with
      | error e => simp at h
      | ok r =>
        simp only [Except.ok.injEq] at h
        subst h
        rcases List.mem_append.1 hm with hm | hm
        · cases o with
          | none => simp at hm
          | some x =>
            simp only [Option.toList_some, List.mem_singleton] at hm
            exact ⟨c, by simp, by rw [ho, hm]⟩
        · obtain ⟨d, hd, he⟩ := ih r hr m hm
          exact ⟨d, by simp [hd], he⟩

theorem insertLink_mem (m x : LinkMatch) (l : List LinkMatch) : x ∈ insertLink m l ↔ x = m ∨ x ∈ l := by
  induction l with
  | nil => simp [insertLink]
  | cons y l ih =>
    rw [insertLink]
    split
    · simp
    · simp only [List.mem_cons, ih]
      constructor
      · rintro (h | h | h) <;> simp [h]
      · rintro (h | h | h) <;> simp [h]

theorem sortLinks_mem (l : List LinkMatch) (x : LinkMatch) : x ∈ sortLinks l ↔ x ∈ l := by
  induction l with
  | nil => simp [sortLinks]
  | cons y l ih => rw [sortLinks, insertLink_mem, ih, List.mem_cons]

theorem dropOverlaps_mem (l : List LinkMatch) : ∀ n, ∀ m ∈ dropOverlaps n l, m ∈ l := by
  induction l with
  | nil => intro n m h; simp [dropOverlaps] at h
  | cons y l ih =>
    intro n m h
    rw [dropOverlaps] at h
    split at h
    · exact List.mem_cons_of_mem _ (ih n m h)
    · rcases List.mem_cons.1 h with rfl | h
      · simp
      · exact List.mem_cons_of_mem _ (ih _ m h)

theorem dropOverlaps_ge (l : List LinkMatch) (hl : ∀ m ∈ l, m.start ≤ m.stop) : ∀ n, ∀ m ∈ dropOverlaps n l, n ≤ m.start := by
  induction l with
  | nil => intro n m h; simp [dropOverlaps] at h
  | cons y l ih =>
    intro n m h
    have hl' : ∀ m ∈ l, m.start ≤ m.stop := fun m hm => hl m (List.mem_cons_of_mem _ hm)
    rw [dropOverlaps] at h
    split at h
    · exact ih hl' n m h
    · have hy := hl y (by simp)
      rcases List.mem_cons.1 h with rfl | h
      · omega
      · have := ih hl' _ m h
        omega

theorem dropOverlaps_disjoint (l : List LinkMatch) (hl : ∀ m ∈ l, m.start ≤ m.stop) :
    ∀ n, (dropOverlaps n l).Pairwise (fun a b => a.stop ≤ b.start) := by
  induction l with
  | nil => intro n; simp [dropOverlaps]
  | cons y l ih =>
    intro n
    have hl' : ∀ m ∈ l, m.start ≤ m.stop := fun m hm => hl m (List.mem_cons_of_mem _ hm)
    rw [dropOverlaps]
    split
    · exact ih hl' n
    · exact List.pairwise_cons.2 ⟨fun m hm => dropOverlaps_ge l hl' _ m hm, ih hl' _⟩

/-- What is known of each link `find_links` returns. -/
theorem findLinks_mem (E : LinkEnv) (cfg : LinkCfg) (text : Str) (ms : List LinkMatch) (h : findLinks E cfg text = .ok ms)
    (m : LinkMatch) (hm : m ∈ ms) : ∃ c ∈ cands E.U text, linkOf E cfg text c = .ok (some m) := by
  rw [findLinks] at h
  generalize ho : linksOf E cfg text (cands E.U text) = o at h
  cases o with
  | error e => simp at h
  | ok o =>
    simp only [Except.ok.injEq] at h
    subst h
    exact linksOf_mem E cfg text _ o ho m ((sortLinks_mem o m).1 (dropOverlaps_mem _ _ m hm))

theorem findLinks_disjoint (E : LinkEnv) (cfg : LinkCfg) (text : Str) (ms : List LinkMatch) (h : findLinks E cfg text = .ok ms) :
    ms.Pairwise (fun a b => a.stop ≤ b.start) := by
  rw [findLinks] at h
  generalize ho : linksOf E cfg text (cands E.U text) = o at h
  cases o with
  | error e => simp at h
  | ok o =>
    simp only [Except.ok.injEq] at h
    subst h
    refine dropOverlaps_disjoint _ (fun m hm => ?_) _
    obtain ⟨c, hc, he⟩ := linksOf_mem E cfg text _ o ho m ((sortLinks_mem o m).1 hm)
    have := (linkOf_some E cfg text c ((cands_slices E.U text).1 c hc).1 m he).2.2.1
    omega

/-- A prefix of the text from an offset is a slice. -/
theorem slice_of_prefix (text t : Str) (s : Nat) (h : t <+: text.drop s) (hne : t ≠ []) :
    s + t.length ≤ text.length ∧ t = Spec.slice text s (s + t.length) := by
  obtain ⟨r, hr⟩ := h
  have hl := congrArg List.length hr
  have hpos : 0 < t.length := List.length_pos_iff.2 hne
  simp only [List.length_append, List.length_drop] at hl
  refine ⟨by omega, ?_⟩
  rw [Spec.slice, List.drop_take, Nat.add_sub_cancel_left, ← hr, List.take_left']
  rfl

end JH
