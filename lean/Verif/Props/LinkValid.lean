import Verif.Lemmas.LinkHref
import Verif.Props.Css

/-! C70, C72: what is linked, and when the link finder raises. -/
namespace JH
open Spec

/-! ### C72 -/

theorem intOf_none (U : Uni) (p : Str) (h : intOf U p = none) : ∃ c ∈ p, U.decVal c = none := by
  have key : ∀ (p : Str) (k : Nat), p.foldl (fun n c => n.bind fun k => (U.decVal c).map fun d => k * 10 + d) (some k) = none →
      ∃ c ∈ p, U.decVal c = none := by
    intro p
    induction p with
    | nil => intro k h; simp at h
    | cons c p ih =>
      intro k h
      rw [List.foldl_cons] at h
      cases hd : U.decVal c with
      | none => exact ⟨c, by simp, hd⟩
      | some d =>
        rw [hd] at h
        obtain ⟨x, hx, he⟩ := ih _ h
        exact ⟨x, by simp [hx], he⟩
  exact key p 0 h

theorem ipv4Parts_error (U : Uni) : ∀ ps : List Str, ipv4Parts U ps = .error () →
    ∃ p ∈ ps, ∃ c ∈ p, U.isDigit c = true ∧ U.decVal c = none := by
  intro ps
  induction ps with
  | nil => intro h; simp [ipv4Parts] at h
  | cons p ps ih =>
    intro h
    rw [ipv4Parts] at h
    split at h
    · cases h
    split at h
    · cases h
    rename_i hd
    split at h
    · rename_i hn
      obtain ⟨c, hc, he⟩ := intOf_none U p hn
      simp only [Bool.not_eq_true', Bool.not_eq_false, List.all_eq_true] at hd
      exact ⟨p, by simp, c, hc, hd c hc, he⟩
    · split at h
      · cases h
      · obtain ⟨q, hq, r⟩ := ih h
        exact ⟨q, by simp [hq], r⟩

theorem validIpv4_error (U : Uni) (host : Str) (h : validIpv4 U host = .error ()) :
    ∃ c ∈ host, U.isDigit c = true ∧ U.decVal c = none := by
  rw [validIpv4] at h
  split at h
  · cases h
  · obtain ⟨p, hp, c, hc, hr⟩ := ipv4Parts_error U _ h
    exact ⟨c, splitC_mem '.' host p hp c hc, hr⟩

theorem splitHost_mem (s : Str) (c : Char) (h : c ∈ (splitHost s).1) : c ∈ s := (List.takeWhile_prefix _).subset h

theorem refused_error (U : Uni) (cfg : LinkCfg) (text : Str) (start : Nat) (cand : Str)
    (h : refused U cfg text start cand = .error ()) : ∃ c ∈ cand, U.isDigit c = true ∧ U.decVal c = none := by
  have viaHost : ∀ host : Str, (∀ c ∈ host, c ∈ cand) → validIpv4 U host = .error () → ∃ c ∈ cand, U.isDigit c = true ∧ U.decVal c = none := by
    intro host hs he
    obtain ⟨c, hc, hr⟩ := validIpv4_error U host he
    exact ⟨c, hs c hc, hr⟩
  rw [refused] at h
  split at h
  · cases h
  split at h
  · rename_i e he
    rw [refusedIp] at he
    split at he
    · dsimp only at he
      split at he
      · split at he
        · rename_i e' hv
          exact viaHost _ (fun c hc => splitHost_mem _ c hc) (by rw [hv])
        · cases he
      · cases he
    · cases he
  · cases h
  · split at h
    · cases h
    split at h
    · rename_i e he
      rw [refusedDomain] at he
      split at he
      · dsimp only at he
        split at he
        · cases he
        · split at he
          · split at he
            · rename_i e' hv
              exact viaHost _ (fun c hc => splitHost_mem _ c hc) (by rw [hv])
            · cases he
          · cases he
      · cases he
    · cases h
    · split at h
      · cases h
      rw [refusedUrl] at h
      split at h
      · dsimp only at h
        have hsub0 : ∀ c ∈ (splitHost (afterScheme cand)).1, c ∈ cand := by
          intro c hc
          have := splitHost_mem _ c hc
          rw [afterScheme] at this
          split at this
          · exact List.mem_of_mem_drop this
          · simp at this
        generalize (splitHost (afterScheme cand)).1 = hp0 at h hsub0
        split at h
        · cases h
        have hsub1 : ∀ c ∈ (if hp0.contains '@' = true then (rsplit1 '@' hp0).2 else hp0), c ∈ cand := by
          intro c hc
          split at hc
          · refine hsub0 c ?_
            rw [rsplit1] at hc
            have := List.mem_reverse.1 hc
            exact List.mem_reverse.1 ((List.takeWhile_prefix _).subset this)
          · exact hsub0 c hc
        generalize (if hp0.contains '@' = true then (rsplit1 '@' hp0).2 else hp0) = hp at h hsub1
        have hsub2 : ∀ c ∈ (if (hp.contains ':' && !startsWith c%"[" hp) = true then (partitionC ':' hp).1 else hp), c ∈ cand := by
          intro c hc
          split at hc
          · refine hsub1 c ?_
            by_cases hm : ':' ∈ hp
            · obtain ⟨a, r, rfl, ha⟩ := mem_split_first ':' hp hm
              rw [partitionC_found ':' a r ha] at hc
              exact List.mem_append_left _ hc
            · rw [partitionC_none ':' hp hm] at hc; exact hc
          · exact hsub1 c hc
        generalize (if (hp.contains ':' && !startsWith c%"[" hp) = true then (partitionC ':' hp).1 else hp) = host at h hsub2
        split at h
        · cases h
        split at h
        · cases h
        split at h
        · cases h
        split at h
        · split at h
          · rename_i hv
            exact viaHost host hsub2 (by rw [hv])
          · cases h
        · cases h
      · cases h

theorem linksOf_error (E : LinkEnv) (cfg : LinkCfg) (text : Str) : ∀ cs : List (Nat × Str), linksOf E cfg text cs = .error () →
    ∃ c ∈ cs, linkOf E cfg text c = .error () := by
  intro cs
  induction cs with
  | nil => intro h; simp [linksOf] at h
  | cons c cs ih =>
    intro h
    rw [linksOf] at h
    split at h
    · rename_i he
      exact ⟨c, by simp, by rw [he]⟩
    · split at h
      · rename_i he
        obtain ⟨d, hd, hr⟩ := ih he
        exact ⟨d, by simp [hd], hr⟩
      · cases h

/-- C72 (what holds of it): the link finder raises only on a text with a digit that is not a decimal digit, such as `²`. -/
theorem C72_raises_only_partial (E : LinkEnv) (cfg : LinkCfg) (text : Str) (h : findLinks E cfg text = .error ()) :
    ∃ c ∈ text, E.U.isDigit c = true ∧ E.U.decVal c = none := by
  rw [findLinks] at h
  split at h
  · rename_i he
    obtain ⟨c, hc, hl⟩ := linksOf_error E cfg text _ he
    rw [linkOf] at hl
    dsimp only at hl
    split at hl
    · cases hl
    · rename_i st cand ht
      split at hl
      · rename_i e hr
        have hsw : (stripWrapping c.2).1 <+: text.drop (c.1 + (stripWrapping c.2).2) := by
          refine (stripWrapping_prefix c.2).trans ?_
          obtain ⟨r, hr⟩ := ((cands_slices E.U text).1 c hc).1
          rw [← List.drop_drop, ← hr, List.drop_append]
          exact List.prefix_append _ _
        obtain ⟨x, hx, hd⟩ := refused_error E.U cfg text st cand (by rw [hr])
        exact ⟨x, List.mem_of_mem_drop ((trimCand_prefix E.U text _ _ hsw st cand ht).1.subset hx), hd⟩
      · cases hl
      · cases hl
  · cases h

/-- C72 is false of the code: `find_links("1.2.3.²")` raises `ValueError`, because `"²".isdigit()` is true and `int("²")` fails. -/
theorem C72_raises_fails : findLinks LinkEnv.sample ⟨false, []⟩ c%"1.2.3.²" = .error () := by decide +kernel

end JH
