import Verif.Props.LinkValid

/-! C70: what the text of a link looks like. -/
namespace JH
open Spec

theorem refused_false (U : Uni) (cfg : LinkCfg) (text : Str) (start : Nat) (cand : Str)
    (h : refused U cfg text start cand = .ok false) :
    afterBroken text start (U.lower cand) cand = false ∧ refusedIp U cfg (U.lower cand) cand = .ok false ∧
    refusedProtoRel U text start (U.lower cand) cand = false ∧ refusedDomain U cfg (U.lower cand) cand = .ok false ∧
    refusedEmail U cfg (U.lower cand) cand = false ∧ refusedUrl U (U.lower cand) cand = .ok false := by
  rw [refused] at h
  split at h
  · cases h
  rename_i h1
  split at h
  · cases h
  · cases h
  rename_i h2
  split at h
  · cases h
  rename_i h3
  split at h
  · cases h
  · cases h
  rename_i h4
  split at h
  · cases h
  rename_i h5
  exact ⟨by simpa using h1, h2, by simpa using h3, h4, by simpa using h5, h⟩

theorem ciChar_same (l c : Char) (h : ciChar l c = true) : SameLetter l c := by
  simp only [ciChar, Bool.or_eq_true, decide_eq_true_eq, Bool.and_eq_true] at h
  rcases h with (h | h) | h
  · exact .inl h
  · exact .inr (.inl h)
  · exact .inr (.inr h)

theorem ccTable_codes : ∀ p ∈ ccTable, ∀ y ∈ p.2, [p.1, y] ∈ countryCodes := by decide +kernel

theorem validTld_known (U : Uni) (extra : List Str) (tld : Str) (hl : U.lower [] = []) (h : validTld U extra tld = true) :
    KnownTld U extra tld := by
  rw [validTld] at h
  split at h
  · cases h
  rename_i hne
  split at h
  · rename_i hc
    simp only [Bool.and_eq_true, decide_eq_true_eq] at hc
    obtain ⟨_, hm⟩ := hc
    left
    rw [ccMatch.eq_def] at hm
    split at hm
    · rename_i a b he
      simp only [List.any_eq_true, Bool.and_eq_true] at hm
      obtain ⟨p, hp, ha, y, hy, hb⟩ := hm
      exact ⟨a, b, p.1, y, ccTable_codes p hp y hy, he, ciChar_same _ _ ha, ciChar_same _ _ hb⟩
    · cases hm
  split at h
  · rename_i hx
    exact .inr (.inl (List.isPrefixOf_iff_prefix.1 hx))
  · rw [Bool.or_eq_true, List.contains_iff_mem, List.contains_iff_mem] at h
    rcases h with h | h
    · exact .inr (.inr (.inl h))
    · refine .inr (.inr (.inr ⟨h, ?_⟩))
      rintro rfl
      rw [hl] at hne
      simp at hne

theorem stripP_decomp (p : Char → Bool) (s : Str) : ∃ l r, s = l ++ stripP p s ++ r ∧ ∀ c ∈ l ++ r, p c = true := by
  obtain ⟨r, hr, ha⟩ := rstripP_prefix p (lstripP p s)
  refine ⟨s.takeWhile p, r, ?_, ?_⟩
  · rw [stripP, List.append_assoc, ← hr]
    exact List.takeWhile_append_dropWhile.symm
  · intro c hc
    rcases List.mem_append.1 hc with hc | hc
    · exact takeWhile_prop p s c hc
    · exact List.all_eq_true.1 ha c hc

theorem lower_nil (U : Uni) : U.lower [] = [] := by rw [U.lower_ascii [] rfl]; rfl

theorem badTld_false (U : Uni) (cfg : LinkCfg) (host : Str) (h : badTld U cfg host = false) : EndsInTld U cfg.extraTlds host := by
  rw [badTld] at h
  split at h
  · cases h
  rename_i t ht
  have hv : validTld U cfg.extraTlds t = true := by simpa using h
  have hk := validTld_known U cfg.extraTlds t (lower_nil U) hv
  rw [tldOf] at ht
  obtain ⟨l1, r1, e1, a1⟩ := stripP_decomp U.isSpace host
  obtain ⟨l2, r2, e2, a2⟩ := stripP_decomp (· = '.') (stripP U.isSpace host)
  generalize hh : stripP (fun x => decide (x = '.')) (stripP U.isSpace host) = hd at ht e2
  split at ht
  · cases ht
  split at ht
  · simp only [Option.some.injEq] at ht
    subst ht
    rw [validTld, lower_nil] at hv
    simp at hv
  split at ht
  · cases ht
  rename_i hdot
  have hm : '.' ∈ hd := by simpa using hdot
  obtain ⟨a, b, rfl, hb⟩ := mem_split_last '.' hd hm
  rw [rsplit1_eq '.' a b hb] at ht
  simp only [Option.some.injEq] at ht
  subst ht
  refine ⟨l1 ++ l2, a, b, r2 ++ r1, ?_, ?_, hb, hk⟩
  · rw [e1, e2]; simp
  · intro c hc
    simp only [List.mem_append] at hc
    rcases hc with (hc | hc) | (hc | hc)
    · exact .inr (a1 c (by simp [hc]))
    · exact .inl (by simpa using a2 c (by simp [hc]))
    · exact .inl (by simpa using a2 c (by simp [hc]))
    · exact .inr (a1 c (by simp [hc]))

theorem join_splitC (sep : Char) (s : Str) : join [sep] (splitC sep s) = s := by
  induction s with
  | nil => rfl
  | cons c s ih =>
    rw [splitC]
    split
    · rename_i h; exact absurd h (splitC_ne_nil sep s)
    · rename_i w ws h
      rw [h] at ih
      split
      · rename_i hc
        rw [join]
        · rw [ih, hc]; rfl
        · simp
      · cases ws with
        | nil => rw [join] at ih ⊢; rw [ih]
        | cons v ws =>
          rw [join] at ih ⊢
          · rw [← ih]; simp
          · simp
          · simp

theorem intOf_number (U : Uni) (p : Str) (n : Nat) (h : intOf U p = some n) : decNumber U 0 p = some n := by
  have none' : ∀ p : Str, p.foldl (fun n c => n.bind fun k => (U.decVal c).map fun d => k * 10 + d) none = none := by
    intro p
    induction p with
    | nil => rfl
    | cons c p ih => rw [List.foldl_cons]; exact ih
  have key : ∀ (p : Str) (k : Nat), p.foldl (fun n c => n.bind fun k => (U.decVal c).map fun d => k * 10 + d) (some k) = some n →
      decNumber U k p = some n := by
    intro p
    induction p with
    | nil => intro k h; simpa [decNumber] using h
    | cons c p ih =>
      intro k h
      rw [List.foldl_cons] at h
      rw [decNumber]
      cases hd : U.decVal c with
      | none =>
        rw [hd] at h
        have : (none : Option Nat) = some n := by
          rw [← none' p]; exact h
        cases this
      | some d =>
        rw [hd] at h
        exact ih _ h
  exact key p 0 h

theorem ipv4Parts_true (U : Uni) : ∀ ps : List Str, ipv4Parts U ps = .ok true → ∀ p ∈ ps, Octet U p ∧ p.all U.isDigit = true := by
  intro ps
  induction ps with
  | nil => intro _ p hp; simp at hp
  | cons q ps ih =>
    intro h p hp
    rw [ipv4Parts] at h
    split at h
    · cases h
    rename_i h1
    split at h
    · cases h
    rename_i h2
    split at h
    · cases h
    rename_i v hv
    split at h
    · cases h
    rename_i h3
    rcases List.mem_cons.1 hp with rfl | hp
    · simp only [Bool.or_eq_true, List.isEmpty_iff, decide_eq_true_eq, not_or] at h1
      exact ⟨⟨h1.1, by omega, v, intOf_number U p v hv, by omega⟩, by simpa using h2⟩
    · exact ih h p hp

theorem validIpv4_true (U : Uni) (host : Str) (h : validIpv4 U host = .ok true) :
    Ipv4 U host ∧ ∃ c, host.head? = some c ∧ U.isDigit c = true := by
  rw [validIpv4] at h
  split at h
  · cases h
  rename_i hl
  have hj := join_splitC '.' host
  generalize hs : splitC '.' host = ps at h hl hj
  match ps, hl with
  | [a, b, c, d], _ =>
    have hp := ipv4Parts_true U _ h
    have ha := hp a (by simp)
    refine ⟨⟨a, b, c, d, ?_, ha.1, (hp b (by simp)).1, (hp c (by simp)).1, (hp d (by simp)).1⟩, ?_⟩
    · rw [← hj]; simp [join]
    · cases a with
      | nil => exact absurd rfl ha.1.1
      | cons x a =>
        refine ⟨x, by rw [← hj]; simp [join], ?_⟩
        have := ha.2
        simp only [List.all_cons, Bool.and_eq_true] at this
        exact this.1
  | [], hl => simp at hl
  | [_], hl => simp at hl
  | [_, _], hl => simp at hl
  | [_, _, _], hl => simp at hl
  | _ :: _ :: _ :: _ :: _ :: _, hl => simp at hl

theorem splitHost_part (s : Str) : HostPart s (splitHost s).1 := by
  refine ⟨(splitHost s).2, (splitHost_eq s).symm, ?_, ?_⟩
  · intro c hc hm
    have := splitHost_host s c hc
    simp only [List.mem_cons, List.not_mem_nil, or_false] at hm
    rcases hm with rfl | rfl | rfl
    · exact this.1 rfl
    · exact this.2.1 rfl
    · exact this.2.2 rfl
  · intro c hc
    have := dropWhile_hd _ s c hc
    simp only [Bool.not_eq_false', Bool.or_eq_true, decide_eq_true_eq] at this
    simp only [List.mem_cons, List.not_mem_nil, or_false]
    rcases this with (h | h) | h <;> simp [h]

theorem afterLast_of (c : Char) (s : Str) : AfterLast c s (if s.contains c then (rsplit1 c s).2 else s) := by
  by_cases h : s.contains c = true
  · rw [if_pos h]
    obtain ⟨a, b, rfl, hb⟩ := mem_split_last c s (by simpa using h)
    rw [rsplit1_eq c a b hb]
    exact ⟨hb, .inr ⟨a, rfl⟩⟩
  · rw [if_neg h]
    exact ⟨by simpa using h, .inl rfl⟩

/-- The facts about a link used below. -/
theorem link_facts (E : LinkEnv) (cfg : LinkCfg) (text : Str) (ms : List LinkMatch) (h : findLinks E cfg text = .ok ms)
    (m : LinkMatch) (hm : m ∈ ms) : refused E.U cfg text m.start m.text = .ok false ∧ m.text ≠ [] := by
  obtain ⟨c, hc, he⟩ := findLinks_mem E cfg text ms h m hm
  obtain ⟨_, h2, _, h4, _⟩ := linkOf_some E cfg text c ((cands_slices E.U text).1 c hc).1 m he
  exact ⟨h4, h2⟩

theorem not_scheme (E : LinkEnv) (t : Str) (hs : ∀ p ∈ linkSchemes, ¬ Begins p t) :
    hasScheme3 (E.U.lower t) = false ∧ startsWith c%"mailto:" (E.U.lower t) = false ∧ startsWith c%"//" (E.U.lower t) = false := by
  refine ⟨?_, ?_, ?_⟩
  · rw [← Bool.not_eq_true, low_scheme3]
    rintro (h | h | h)
    · exact hs _ (by decide) h
    · exact hs _ (by decide) h
    · exact hs _ (by decide) h
  · rw [← Bool.not_eq_true, low_mailto]; exact hs _ (by decide)
  · rw [← Bool.not_eq_true, low_slashes]; exact hs _ (by decide)

/-- C70: a link whose text has no scheme, no `www.` and no `@` is a bare domain: its host has no underscore and ends in a known
top-level domain, or is an IPv4 address and `fuzzy_ip` is set; and it does not follow `://`, `/`, `:` or `@`. -/
theorem C70_bare_domain (E : LinkEnv) (cfg : LinkCfg) (text : Str) (ms : List LinkMatch) (h : findLinks E cfg text = .ok ms)
    (m : LinkMatch) (hm : m ∈ ms) (hs : ∀ p ∈ linkSchemes, ¬ Begins p m.text) (hw : ¬ Begins c%"www." m.text) (ha : '@' ∉ m.text) :
    (∃ host, HostPart m.text host ∧ '_' ∉ host ∧ ((Ipv4 E.U host ∧ cfg.fuzzyIp = true) ∨ EndsInTld E.U cfg.extraTlds host)) ∧
    ∀ a c b, text = a ++ c :: b → a.length + 1 = m.start → c ≠ '/' ∧ c ≠ ':' ∧ c ≠ '@' := by
  obtain ⟨hr, _⟩ := link_facts E cfg text ms h m hm
  obtain ⟨r1, r2, _, r4, _, _⟩ := refused_false _ _ _ _ _ hr
  obtain ⟨n3, nm, n2⟩ := not_scheme E m.text hs
  have nw : startsWith c%"www." (E.U.lower m.text) = false := by rw [← Bool.not_eq_true, low_www]; exact hw
  have nat : m.text.contains '@' = false := by simpa using ha
  refine ⟨⟨(splitHost m.text).1, splitHost_part _, ?_⟩, ?_⟩
  · rw [refusedDomain, n3, nm, n2, nw, nat] at r4
    simp only [Bool.or_false, Bool.not_false, Bool.and_true, if_true] at r4
    generalize hhost : (splitHost m.text).1 = host at r4
    split at r4
    · cases r4
    rename_i hu
    refine ⟨by simpa using hu, ?_⟩
    split at r4
    · rename_i hdd
      simp only [Bool.and_eq_true] at hdd
      split at r4
      · cases r4
      rename_i b hv
      cases b with
      | true =>
        obtain ⟨hip, c, hc, hcd⟩ := validIpv4_true E.U host hv
        refine .inl ⟨hip, ?_⟩
        have hpre := splitHost_eq m.text
        rw [hhost] at hpre
        have hhead : m.text.head? = some c := by rw [← hpre, List.head?_append, hc]; rfl
        have hdot : m.text.contains '.' = true := by
          rw [List.contains_iff_mem, ← hpre]
          exact List.mem_append_left _ (by simpa using hdd.1)
        rw [refusedIp, n3, n2, hhead, hdot, hhost] at r2
        simp only [Option.any_some, hcd, Bool.or_false, Bool.not_false, Bool.and_true, if_true, hdd.2, hv, Bool.true_and,
          Except.ok.injEq, Bool.not_eq_false'] at r2
        exact r2
      | false =>
        simp only [Bool.not_false, Bool.true_and, Except.ok.injEq] at r4
        exact .inr (badTld_false E.U cfg host r4)
    · simp only [Except.ok.injEq] at r4
      exact .inr (badTld_false E.U cfg host r4)
  · intro a c b ht hlen
    rw [afterBroken, n3, nm, n2, nw, nat] at r1
    simp only [Bool.or_false, Bool.not_false, Bool.true_and, Bool.or_eq_false_iff] at r1
    have hp := r1.2
    rw [prevIn] at hp
    have hc : text[m.start - 1]? = some c := by rw [← hlen, ht]; simp
    rw [hc] at hp
    have hpos : (decide (m.start > 0)) = true := by rw [← hlen]; simp
    rw [hpos] at hp
    simp only [Option.any_some, Bool.true_and] at hp
    refine ⟨?_, ?_, ?_⟩ <;> · rintro rfl; exact absurd hp (by decide)

/-- C70: the domain of an e-mail address without `mailto:` has no underscore and ends in a known top-level domain. -/
theorem C70_email_domain (E : LinkEnv) (cfg : LinkCfg) (text : Str) (ms : List LinkMatch) (h : findLinks E cfg text = .ok ms)
    (m : LinkMatch) (hm : m ∈ ms) (hs : ∀ p ∈ linkSchemes, ¬ Begins p m.text) (ha : '@' ∈ m.text) :
    ∃ domain host, AfterLast '@' m.text domain ∧ HostPart domain host ∧ '_' ∉ host ∧ EndsInTld E.U cfg.extraTlds host := by
  obtain ⟨hr, _⟩ := link_facts E cfg text ms h m hm
  obtain ⟨_, _, _, _, r5, _⟩ := refused_false _ _ _ _ _ hr
  obtain ⟨n3, nm, n2⟩ := not_scheme E m.text hs
  have hat : m.text.contains '@' = true := by simpa using ha
  rw [refusedEmail, n3, nm, n2, hat] at r5
  simp only [Bool.or_false, Bool.not_false, Bool.and_true, if_true, Bool.or_eq_false_iff] at r5
  have hal := afterLast_of '@' m.text
  rw [if_pos hat] at hal
  exact ⟨_, _, hal, splitHost_part _, by simpa using r5.1, badTld_false E.U cfg _ r5.2⟩

theorem badPort_false (port : Str) (h : badPort port = false) : GoodPort port := by
  rw [badPort, Bool.and_eq_false_iff] at h
  rcases h with h | h
  · left; simpa using h
  · right
    simp only [Bool.or_eq_false_iff, Bool.not_eq_false', decide_eq_false_iff_not, List.all_eq_true, Bool.and_eq_false_iff] at h
    obtain ⟨⟨⟨_, h2⟩, h3⟩, h4⟩ := h
    refine ⟨by omega, h2, fun hl => ?_⟩
    rcases h4 with h4 | h4
    · exact absurd hl h4
    · have key : ∀ a b : Str, b < a → b.map Char.toNat < a.map Char.toNat := by
        intro a
        induction a with
        | nil => intro b hb; exact absurd hb (List.not_lt_nil b)
        | cons x a ih =>
          intro b hb
          cases b with
          | nil => exact List.nil_lt_cons _ _
          | cons y b =>
            rw [List.map_cons, List.map_cons]
            rcases List.cons_lt_cons_iff.1 hb with hlt | ⟨rfl, hlt⟩
            · exact List.cons_lt_cons_iff.2 (.inl hlt)
            · exact List.cons_lt_cons_iff.2 (.inr ⟨rfl, ih b hlt⟩)
      rcases Classical.em (port ≤ c%"65535") with hle | hle
      · exact hle
      · exact absurd (key _ _ (List.not_le.1 hle)) h4


theorem lowerC_eq_plain (c x : Char) (hx : isLowerC x = false) (h : lowerC c = x) : c = x := by
  by_cases hu : isUpperC c = true
  · exfalso
    have hv := lowerC_toNat c hu
    rw [h] at hv
    have : isLowerC x = true := by
      have h1 : 'a'.toNat = 97 := rfl
      have h2 : 'z'.toNat = 122 := rfl
      simp only [isLowerC, Bool.and_eq_true, decide_eq_true_eq]
      omega
    rw [hx] at this
    cases this
  · rw [lowerC, if_neg hu] at h; exact h

/-- The text after `://`. -/
theorem afterScheme_eq (x rest : Str) (hx : ':' ∉ x) : afterScheme (x ++ c%"://" ++ rest) = rest := by
  have hf : find? c%"://" (x ++ c%"://" ++ rest) = some x.length := by
    induction x with
    | nil => rw [List.nil_append, List.cons_append, find?]; simp [startsWith]
    | cons c x ih =>
      simp only [List.mem_cons, not_or] at hx
      rw [List.cons_append, List.cons_append, find?]
      have : startsWith c%"://" (c :: (x ++ c%"://" ++ rest)) = false := by
        simp [startsWith, List.isPrefixOf, hx.1]
      rw [this, ih hx.2]
      simp
  rw [afterScheme, hf]
  have h1 : x.length + 3 = (x ++ c%"://").length := by simp
  dsimp only
  rw [h1, List.drop_left']
  rfl

theorem scheme_split (t s : Str) (hs : ∀ c ∈ s, isLowerC c = true) (h : Begins (s ++ c%"://") t) :
    ∃ x rest, t = x ++ c%"://" ++ rest ∧ lowerA x = s ∧ ':' ∉ x := by
  obtain ⟨a, rest, rfl, ha⟩ := h
  rw [lowerA] at ha
  obtain ⟨x, y, rfl, hx, hy⟩ := List.map_eq_append_iff.1 ha
  have hy' : y = c%"://" := by
    match y, hy with
    | [p, q, r], hy =>
      simp only [List.map_cons, List.map_nil, List.cons.injEq, and_true] at hy
      rw [lowerC_eq_plain p ':' (by decide) hy.1, lowerC_eq_plain q '/' (by decide) hy.2.1, lowerC_eq_plain r '/' (by decide) hy.2.2]
    | [], hy => simp at hy
    | [_], hy => simp at hy
    | [_, _], hy => simp at hy
    | _ :: _ :: _ :: _ :: _, hy => simp at hy
  refine ⟨x, rest, by rw [hy'], hx, ?_⟩
  intro hm
  have : lowerC ':' ∈ s := by rw [← hx]; exact List.mem_map.2 ⟨_, hm, rfl⟩
  exact absurd (hs _ this) (by decide)

/-- C70: a link with the scheme `http`, `https` or `ftp` has a host, its port is a number up to 65535, and when the host consists
of digits and dots it is an IPv4 address. -/
theorem C70_url_host (E : LinkEnv) (cfg : LinkCfg) (text : Str) (ms : List LinkMatch) (h : findLinks E cfg text = .ok ms)
    (m : LinkMatch) (hm : m ∈ ms) (s : Str) (hs : s = c%"http" ∨ s = c%"https" ∨ s = c%"ftp") (hb : Begins (s ++ c%"://") m.text) :
    ∃ x rest auth hp host, m.text = x ++ c%"://" ++ rest ∧ lowerA x = s ∧ HostPart rest auth ∧ AfterLast '@' auth hp ∧ GoodHost host ∧
      ((hp = host ∧ (':' ∈ host → host.head? = some '[')) ∨ ∃ port, hp = host ++ ':' :: port ∧ ':' ∉ host ∧ GoodPort port) ∧
      ('.' ∈ host → (∃ c ∈ host, c ≠ '.') → (∀ c ∈ host, c = '.' ∨ E.U.isDigit c = true) → Ipv4 E.U host) := by
  obtain ⟨hr, _⟩ := link_facts E cfg text ms h m hm
  obtain ⟨_, _, _, _, _, r6⟩ := refused_false _ _ _ _ _ hr
  have h3 : hasScheme3 (E.U.lower m.text) = true := by
    rw [low_scheme3]
    rcases hs with rfl | rfl | rfl
    · exact .inl hb
    · exact .inr (.inl hb)
    · exact .inr (.inr hb)
  obtain ⟨x, rest, ht, hx, hc⟩ := scheme_split m.text s (by rcases hs with rfl | rfl | rfl <;> decide) hb
  rw [refusedUrl, if_pos h3, ht, afterScheme_eq x rest hc] at r6
  have hpart := splitHost_part rest
  generalize (splitHost rest).1 = auth at r6 hpart
  dsimp only at r6
  split at r6
  · cases r6
  have hlast := afterLast_of '@' auth
  generalize (if auth.contains '@' = true then (rsplit1 '@' auth).2 else auth) = hp at r6 hlast
  have hsplit : ∀ host, host = (if (hp.contains ':' && !startsWith c%"[" hp) = true then (partitionC ':' hp).1 else hp) →
      ((hp.contains ':' && !startsWith c%"[" hp) && badPort (partitionC ':' hp).2.2) = false →
      ((hp = host ∧ (':' ∈ host → host.head? = some '[')) ∨ ∃ port, hp = host ++ ':' :: port ∧ ':' ∉ host ∧ GoodPort port) := by
    intro host he hp'
    by_cases hcol : (hp.contains ':' && !startsWith c%"[" hp) = true
    · rw [if_pos hcol] at he
      rw [hcol, Bool.true_and] at hp'
      right
      simp only [Bool.and_eq_true, List.contains_iff_mem] at hcol
      obtain ⟨a, r, rfl, ha⟩ := mem_split_first ':' hp hcol.1
      rw [partitionC_found ':' a r ha] at he hp'
      dsimp only at he hp'
      subst he
      exact ⟨r, rfl, ha, badPort_false r hp'⟩
    · rw [if_neg hcol] at he
      subst he
      refine .inl ⟨rfl, fun hm => ?_⟩
      simp only [Bool.and_eq_true, List.contains_iff_mem, Bool.not_eq_true', not_and, Bool.not_eq_false] at hcol
      have := List.isPrefixOf_iff_prefix.1 (hcol hm)
      obtain ⟨r, hr⟩ := this
      rw [← hr]; rfl
  generalize hhost : (if (hp.contains ':' && !startsWith c%"[" hp) = true then (partitionC ':' hp).1 else hp) = host at r6 hsplit
  split at r6
  · cases r6
  rename_i hport
  split at r6
  · cases r6
  rename_i hgood
  split at r6
  · cases r6
  rename_i hunder
  refine ⟨x, rest, auth, hp, host, ht, hx, hpart, hlast, ?_, hsplit host rfl (by simpa using hport), ?_⟩
  · simp only [Bool.or_eq_true, not_or, Bool.not_eq_true] at hgood
    obtain ⟨⟨⟨⟨⟨g1, g2⟩, g3⟩, g4⟩, g5⟩, g6⟩ := hgood
    refine ⟨by simpa using g1, by simpa using hunder, ?_, ?_, ?_⟩
    · intro c hc
      cases host with
      | nil => simp at hc
      | cons y host =>
        simp only [List.head?_cons, Option.some.injEq] at hc
        subst hc
        constructor
        · rintro rfl; simp [startsWith, List.isPrefixOf] at g2
        · rintro rfl; simp [startsWith, List.isPrefixOf] at g3
    · intro c hc
      obtain ⟨ys, rfl⟩ := List.getLast?_eq_some_iff.1 hc
      constructor
      · rintro rfl
        have := List.isSuffixOf_iff_suffix.2 (List.suffix_append ys ['-'])
        rw [endsWith, this] at g4
        cases g4
      · rintro rfl
        have := List.isSuffixOf_iff_suffix.2 (List.suffix_append ys ['.'])
        rw [endsWith, this] at g5
        cases g5
    · intro hin
      obtain ⟨a, b, hab⟩ := hin
      exact isIn_false_iff.1 g6 a b hab.symm
  · intro hdot hne hall
    have hd : (host.contains '.' && dottedDigits E.U host) = true := by
      have h1 : host.contains '.' = true := by simpa using hdot
      rw [h1, Bool.true_and, dottedDigits]
      obtain ⟨c, hc, hcd⟩ := hne
      simp only [Bool.and_eq_true, Bool.not_eq_true', List.all_eq_true, List.mem_filter, decide_eq_true_eq]
      refine ⟨?_, fun z hz => (hall z hz.1).resolve_left hz.2⟩
      cases hf : host.filter (fun x => decide (x ≠ '.')) with
      | nil => exact absurd (List.filter_eq_nil_iff.1 hf c hc) (by simp [hcd])
      | cons y ys => rfl
    rw [if_pos hd] at r6
    split at r6
    · cases r6
    rename_i b hv
    cases b with
    | true => exact (validIpv4_true E.U host hv).1
    | false => simp at r6

/-- C70: a protocol-relative link has a host that is `localhost` or contains a dot, without underscore, and does not follow `:` or `/`. -/
theorem C70_protocol_relative (E : LinkEnv) (cfg : LinkCfg) (text : Str) (ms : List LinkMatch) (h : findLinks E cfg text = .ok ms)
    (m : LinkMatch) (hm : m ∈ ms) (hb : Begins c%"//" m.text) :
    (∃ rest auth hp host, m.text = c%"//" ++ rest ∧ HostPart rest auth ∧ auth.head? ≠ some '[' ∧ AfterLast '@' auth hp ∧
      (hp = host ∨ ∃ port, hp = host ++ ':' :: port) ∧ ':' ∉ host ∧ '_' ∉ host ∧ (E.U.lower host = c%"localhost" ∨ '.' ∈ host)) ∧
    ∀ a c b, text = a ++ c :: b → a.length + 1 = m.start → c ≠ '/' ∧ c ≠ ':' := by
  obtain ⟨hr, _⟩ := link_facts E cfg text ms h m hm
  obtain ⟨_, _, r3, _, _, _⟩ := refused_false _ _ _ _ _ hr
  rw [refusedProtoRel, if_pos ((low_slashes E _).2 hb)] at r3
  split at r3
  · cases r3
  rename_i hprev
  obtain ⟨ab, rest, ht, hab⟩ := hb
  have hab' : ab = c%"//" := by
    match ab, hab with
    | [p, q], hy =>
      simp only [lowerA, List.map_cons, List.map_nil, List.cons.injEq, and_true] at hy
      rw [lowerC_eq_plain p '/' (by decide) hy.1, lowerC_eq_plain q '/' (by decide) hy.2]
    | [], hy => simp [lowerA] at hy
    | [_], hy => simp [lowerA] at hy
    | _ :: _ :: _ :: _, hy => simp [lowerA] at hy
  subst hab'
  have hdrop : m.text.drop 2 = rest := by rw [ht]; rfl
  rw [hdrop] at r3
  have hpart := splitHost_part rest
  generalize (splitHost rest).1 = auth at r3 hpart
  dsimp only at r3
  split at r3
  · cases r3
  rename_i hauth
  have hlast := afterLast_of '@' auth
  generalize (if auth.contains '@' = true then (rsplit1 '@' auth).2 else auth) = hp at r3 hlast
  refine ⟨⟨rest, auth, hp, (if hp.contains ':' = true then (partitionC ':' hp).1 else hp), ht, hpart, ?_, hlast, ?_, ?_, ?_, ?_⟩, ?_⟩
  · intro hh
    cases auth with
    | nil => simp at hh
    | cons y auth =>
      simp only [List.head?_cons, Option.some.injEq] at hh
      subst hh
      simp [startsWith, List.isPrefixOf] at hauth
  · by_cases hc : hp.contains ':' = true
    · rw [if_pos hc]
      obtain ⟨a, r, rfl, ha⟩ := mem_split_first ':' hp (by simpa using hc)
      rw [partitionC_found ':' a r ha]
      exact .inr ⟨r, rfl⟩
    · rw [if_neg hc]; exact .inl rfl
  · by_cases hc : hp.contains ':' = true
    · rw [if_pos hc]
      obtain ⟨a, r, rfl, ha⟩ := mem_split_first ':' hp (by simpa using hc)
      rw [partitionC_found ':' a r ha]
      exact ha
    · rw [if_neg hc]; simpa using hc
  · rw [Bool.or_eq_false_iff] at r3
    simpa using r3.2
  · rw [Bool.or_eq_false_iff, Bool.and_eq_false_iff] at r3
    rcases r3.1 with h1 | h1
    · left; simpa using h1
    · right; simpa using h1
  · intro a c b ht' hlen
    have hp' : prevIn text m.start c%":/" = false := by simpa using hprev
    rw [prevIn] at hp'
    have hc : text[m.start - 1]? = some c := by rw [← hlen, ht']; simp
    rw [hc] at hp'
    have hpos : (decide (m.start > 0)) = true := by rw [← hlen]; simp
    rw [hpos] at hp'
    simp only [Option.any_some, Bool.true_and] at hp'
    refine ⟨?_, ?_⟩ <;> · rintro rfl; exact absurd hp' (by decide)

/-- The hypotheses of the C70 theorems are met. -/
example : findLinks LinkEnv.sample ⟨true, [c%"foo"]⟩ c%"a.foo/x 1.2.3.4 b@c.de http://u@h.x:80/ //y.z" =
    .ok [⟨0, 7, c%"a.foo/x", c%"http://a.foo/x", false⟩, ⟨8, 15, c%"1.2.3.4", c%"http://1.2.3.4", false⟩,
      ⟨16, 22, c%"b@c.de", c%"mailto:b@c.de", true⟩, ⟨23, 39, c%"http://u@h.x:80/", c%"http://u@h.x:80/", false⟩,
      ⟨40, 45, c%"//y.z", c%"//y.z", false⟩] := by decide +kernel

/-- Nothing is found in these. -/
example : findLinks LinkEnv.sample ⟨false, []⟩ c%"a.foo 1.2.3.4 b@c.js http://h:99999 //y http://1.2.3.400 a_b.com x://c.com localhost" = .ok [] := by
  decide +kernel

end JH
