import Verif.Lemmas.Reuse
import Verif.Props.SanDrop
/-! C101: a policy object can be edited and used again; every call follows the policy as it stands. -/
namespace JH
open Spec

theorem tidy_dict {U : Uni} {C : SanCfg} (h : TidyFields U C) : DictOk U C.allowedAttrs := ⟨h.keys, fun p hp => (h.attrs p hp).1.2.1⟩

theorem map_self {α : Type} {f : α → α} {l : List α} (h : ∀ x ∈ l, f x = x) : l.map f = l :=
  (List.map_congr_left h).trans (List.map_id' l)

theorem map_lower_plain {U : Uni} {l : List Str} (h : ∀ x ∈ l, PlainName U x) : l.map U.lower = l := by
  exact map_self fun x hx => (h x hx).2.1

theorem norm_plain {U : Uni} {x : Str} (h : PlainName U x) : normName U x = x := by unfold normName; rw [h.1, h.2.1]

theorem normSet_plain {U : Uni} {l : List Str} (h : ∀ x ∈ l, PlainName U x) : normSet U l = l := by
  have e : l.map (normName U) = l := by
    exact map_self fun x hx => norm_plain (h x hx)
  unfold normSet
  rw [e]
  refine List.filter_eq_self.2 fun x hx => ?_
  have := (h x hx).2.2
  cases x with
  | nil => exact absurd rfl this
  | cons _ _ => rfl

theorem normAttrs_plain {U : Uni} (l : List (Str × List Str)) (acc : List (Str × List Str))
    (h : ∀ p ∈ l, PlainName U p.1 ∧ ∀ a ∈ p.2, PlainName U a) (hn : ((acc ++ l).map Prod.fst).Nodup) : normAttrs U acc l = some (acc ++ l) := by
  induction l generalizing acc with
  | nil => rw [List.append_nil]; rfl
  | cons p l ih =>
    obtain ⟨k, s⟩ := p
    have hp := h (k, s) List.mem_cons_self
    unfold normAttrs
    rw [norm_plain hp.1, normSet_plain hp.2]
    have hk : k.isEmpty = false := by
      have := hp.1.2.2
      cases k with
      | nil => exact absurd rfl this
      | cons _ _ => rfl
    rw [if_neg (by rw [hk]; exact Bool.false_ne_true)]
    have hm : ∀ acc : List (Str × List Str), k ∉ acc.map Prod.fst → mergeAttrs acc k s = acc ++ [(k, s)] := by
      intro acc hk
      induction acc with
      | nil => rfl
      | cons q acc ih =>
        obtain ⟨k', s'⟩ := q
        rw [List.map_cons, List.mem_cons, not_or] at hk
        unfold mergeAttrs
        rw [if_neg fun e => hk.1 e.symm, ih hk.2]
        rfl
    have hk' : k ∉ acc.map Prod.fst := by
      rw [List.map_append, List.nodup_append] at hn
      intro q
      exact hn.2.2 k q k (by simp) rfl
    rw [hm acc hk', ih (acc ++ [(k, s)]) (fun p hp => h p (List.mem_cons_of_mem _ hp)) (by rw [List.append_assoc]; exact hn), List.append_assoc]
    rfl

/-- The constructor leaves tidy fields as they are. -/
theorem newPolicy_tidy {σ : Type} {U : Uni} {C : SanCfg} (h : TidyFields U C) : newPolicy (σ := σ) U C = some { cfg := C, cache := none } := by
  unfold newPolicy mkPolicy
  rw [normAttrs_plain C.allowedAttrs [] h.attrs h.keys]
  dsimp only [List.nil_append]
  have hs : (C.allowedAttrs.any (fun p => p.2.contains c%"style") && C.cssProps.isEmpty) = false := by
    rw [Bool.and_eq_false_iff]
    by_cases q : C.cssProps = []
    · left
      refine Bool.eq_false_iff.2 fun k => ?_
      obtain ⟨p, hp, hc⟩ := List.any_eq_true.1 k
      exact h.style ⟨p, hp, List.contains_iff_mem.1 hc⟩ q
    · right
      simpa using q
  rw [hs, if_neg Bool.false_ne_true, normSet_plain h.tags, normSet_plain h.drop, normSet_plain h.rel]
  rfl

/-! ### What the signature determines -/

theorem lowSig_perm {U : Uni} {a b : List Str} (h : lowSig U a = lowSig U b) : (a.map U.lower).Perm (b.map U.lower) := perm_of_sort h

theorem lowSig_empty {U : Uni} {a b : List Str} (h : lowSig U a = lowSig U b) : a.isEmpty = b.isEmpty := by
  have := (lowSig_perm h).length_eq
  rw [List.length_map, List.length_map] at this
  cases a <;> cases b <;> simp_all

theorem plain_perm {U : Uni} {a b : List Str} (ha : ∀ x ∈ a, PlainName U x) (hb : ∀ x ∈ b, PlainName U x) (h : lowSig U a = lowSig U b) :
    a.Perm b := by
  have := lowSig_perm h
  rwa [map_lower_plain ha, map_lower_plain hb] at this

theorem css_norm {U : Uni} {a : List Str} (ha : ∀ x ∈ a, U.lower (stripP U.isSpace (U.lower x)) = U.lower (stripP U.isSpace x)) :
    normSet U (a.map U.lower) = normSet U a := by
  unfold normSet
  rw [List.map_map]
  congr 1
  exact List.map_congr_left ha

theorem normSet_mem_perm {U : Uni} {a b : List Str} (h : a.Perm b) (x : Str) : x ∈ normSet U a ↔ x ∈ normSet U b :=
  ((h.map (normName U)).filter _).mem_iff

theorem sig_attrs {U : Uni} {C C' : SanCfg} (h : TidyFields U C) (h' : TidyFields U C')
    (e : sortBy itemLe (C.allowedAttrs.map (itemSig U)) = sortBy itemLe (C'.allowedAttrs.map (itemSig U))) :
    SameDict C.allowedAttrs C'.allowedAttrs := by
  have hi : ∀ {C : SanCfg}, TidyFields U C → C.allowedAttrs.map (itemSig U) = C.allowedAttrs.map fun p => (p.1, sortBy strLe p.2) := by
    intro C h
    refine List.map_congr_left fun p hp => ?_
    unfold itemSig lowSig
    rw [(h.attrs p hp).1.2.1, map_lower_plain (h.attrs p hp).2]
  have hp := perm_of_sort e
  rw [hi h, hi h'] at hp
  intro k
  rw [← lookup_mapVal, ← lookup_mapVal]
  refine lookup_perm hp ?_ k
  rw [List.map_map]
  exact h.keys

theorem lowerAttrs_tidy {U : Uni} {C : SanCfg} (h : TidyFields U C) : lowerAttrs U (effAttrs C) = effAttrs C := by
  have hm : ∀ p ∈ effAttrs C, ∀ a ∈ p.2, U.lower a = a := by
    intro p hp a ha
    have hl := dictMem_lookup (effAttrs_ok (tidy_dict h)).nodup (show (p.1, p.2) ∈ effAttrs C from hp)
    rw [effAttrs_lookup] at hl
    have key : ∀ k s, C.allowedAttrs.lookup k = some s → ∀ a ∈ s, U.lower a = a :=
      fun k s hk a ha => ((h.attrs _ (dictLookup_mem hk)).2 a ha).2.1
    split at hl
    · rw [← Option.some.inj hl] at ha
      rcases List.mem_append.1 ha with q | q
      · rcases e : C.allowedAttrs.lookup c%"a" with _ | s
        · rw [e] at q; cases q
        · rw [e] at q; exact key _ _ e a q
      · rw [List.mem_singleton.1 q]; exact lower_lit U (by decide) (by decide)
    · exact key _ _ hl a ha
  unfold lowerAttrs
  refine map_self fun p hp => ?_
  rw [map_self (hm p hp)]

theorem nameTuple_empty {U : Uni} {l : List Str} (h : ∀ x ∈ l, PlainName U x) : (nameTuple U l).isEmpty = l.isEmpty := by
  unfold nameTuple
  rw [normSet_plain h]
  cases l with
  | nil => rfl
  | cons x xs =>
    have : x ∈ sortBy strLe (x :: xs).eraseDups := (sortBy_perm _ _).mem_iff.2 (List.mem_eraseDups.2 List.mem_cons_self)
    cases e : sortBy strLe (x :: xs).eraseDups with
    | nil => rw [e] at this; cases this
    | cons _ _ => rfl

/-- The plan of a tidy policy allows the attributes that the policy allows. -/
theorem effAttrs_snapshot {U : Uni} {C : SanCfg} (h : TidyFields U C) (u : UrlPolicy) : effAttrs { snapshot U C with url := u } = effAttrs C := by
  have ha : (snapshot U C).allowedAttrs = effAttrs C := lowerAttrs_tidy h
  have hc : ((nameTuple U C.forceRel).isEmpty || (((effAttrs C).lookup c%"a").getD []).contains c%"rel" ||
      (((effAttrs C).lookup c%"*").getD []).contains c%"rel") = true := by
    rw [nameTuple_empty h.rel, effAttrs_lookup, effAttrs_lookup]
    by_cases q : addsRel C = true
    · rw [if_pos ⟨q, rfl⟩]
      simp
    · rw [if_neg fun k => q k.1, if_neg fun k => q k.1]
      unfold addsRel at q
      rw [Bool.not_eq_true, Bool.not_eq_false'] at q
      exact q
  unfold effAttrs
  dsimp only
  rw [ha]
  exact if_pos hc

theorem decision_congr {U : Uni} {C C' : SanCfg} (h1 : C.allowedTags = C'.allowedTags) (h2 : ∀ x, C.dropContent.contains x = C'.dropContent.contains x)
    (h3 : C.handling = C'.handling) (name : Str) : decision U C name = decision U C' name := by
  unfold decision
  rw [h1, h2, h3]

theorem styleAttrs_congr {E : UrlEnv} {C C' : SanCfg} (h1 : C.cssProps = C'.cssProps) (h2 : C.url = C'.url) (name : Str) (as : Attrs) :
    styleAttrs E C name as = styleAttrs E C' name as := by
  unfold styleAttrs
  rw [h1, h2]

theorem sanOps_congr {C C' : SanCfg} (h1 : C.stripInv = C'.stripInv) (h2 : C.forceRel = C'.forceRel) (h3 : C.dropComments = C'.dropComments)
    (h4 : C.dropDoctype = C'.dropDoctype) : sanOps C = sanOps C' := by
  unfold sanOps
  rw [h1, h2, h3, h4]

/-- Plans with equal signatures cannot be told apart. -/
theorem sameUse_of_sig {σ : Type} {S : SanEnv} {us : UrlPolicy → σ} {C C' : SanCfg} (h : TidyFields S.E.U C) (h' : TidyFields S.E.U C')
    (ht : C.allowedTags = C'.allowedTags) (hc : C.dropComments = C'.dropComments) (hd : C.dropDoctype = C'.dropDoctype)
    (e : polSig S.E.U us C = polSig S.E.U us C') :
    SameUse S { snapshot S.E.U C with url := C'.url } { snapshot S.E.U C' with url := C'.url } := by
  have e1 : sortBy itemLe (C.allowedAttrs.map (itemSig S.E.U)) = sortBy itemLe (C'.allowedAttrs.map (itemSig S.E.U)) := congrArg PolSig.attrs e
  have e2 : lowSig S.E.U C.dropContent = lowSig S.E.U C'.dropContent := congrArg PolSig.drop e
  have e3 : lowSig S.E.U C.cssProps = lowSig S.E.U C'.cssProps := congrArg PolSig.css e
  have e4 : lowSig S.E.U C.forceRel = lowSig S.E.U C'.forceRel := congrArg PolSig.rel e
  have e5 : C.handling = C'.handling := congrArg PolSig.handling e
  have e6 : C.stripInv = C'.stripInv := congrArg PolSig.strip e
  have hrel : nameTuple S.E.U C.forceRel = nameTuple S.E.U C'.forceRel := nameTuple_eq (normSet_mem_perm (plain_perm h.rel h'.rel e4))
  have hcss' : nameTuple S.E.U C.cssProps = nameTuple S.E.U C'.cssProps := by
    refine nameTuple_eq fun x => ?_
    rw [← css_norm h.css, ← css_norm h'.css]
    exact normSet_mem_perm (lowSig_perm e3) x
  have hcss : (snapshot S.E.U C).cssProps = (snapshot S.E.U C').cssProps := by
    unfold snapshot
    dsimp only
    rw [hcss', lowSig_empty e3]
  have hdrop : ∀ x, C.dropContent.contains x = C'.dropContent.contains x := by
    intro x
    rw [Bool.eq_iff_iff, List.contains_iff_mem, List.contains_iff_mem]
    exact (plain_perm h.drop h'.drop e2).mem_iff
  constructor
  · exact fun name => decision_congr ht hdrop e5 name
  · intro name as
    unfold sanAttrs
    rw [effAttrs_snapshot h, effAttrs_snapshot h', allowlist_same (effAttrs_ok (tidy_dict h)) (effAttrs_ok (tidy_dict h'))
      (effAttrs_same (sig_attrs h h' e1) (lowSig_empty e4))]
    exact styleAttrs_congr (C := { snapshot S.E.U C with url := C'.url }) (C' := { snapshot S.E.U C' with url := C'.url }) hcss rfl name _
  · exact hrel
  · exact e5
  · exact sanOps_congr e6 hrel hc hd
  · exact congrArg (fun l : List Str => l.any rawtextElements.contains) ht

/-! ### Histories -/

/-- The cached plan was made from tidy fields that differ only in editable parts. -/
def CacheOk {σ : Type} (U : Uni) (us : UrlPolicy → σ) (P : PolObj σ) : Prop :=
  ∀ sig plan, P.cache = some (sig, plan) → ∃ C, TidyFields U C ∧ C.allowedTags = P.cfg.allowedTags ∧ C.dropComments = P.cfg.dropComments ∧
    C.dropDoctype = P.cfg.dropDoctype ∧ sig = polSig U us C ∧ plan = snapshot U C

theorem compile_cfg {σ : Type} [DecidableEq σ] {U : Uni} {us : UrlPolicy → σ} (P : PolObj σ) : (P.compile U us).1.cfg = P.cfg := by
  unfold PolObj.compile
  split
  · split <;> rfl
  · rfl

theorem compile_ok {σ : Type} [DecidableEq σ] {U : Uni} {us : UrlPolicy → σ} {P : PolObj σ} (h : CacheOk U us P) (ht : TidyFields U P.cfg) :
    CacheOk U us (P.compile U us).1 := by
  have new : CacheOk U us { P with cache := some (polSig U us P.cfg, snapshot U P.cfg) } := by
    intro sig plan e
    cases e
    exact ⟨P.cfg, ht, rfl, rfl, rfl, rfl, rfl⟩
  unfold PolObj.compile
  split
  · split
    · exact h
    · exact new
  · exact new

/-- One call on a policy with a proper cache gives the result of the present fields. -/
theorem sanitize_present {σ : Type} [DecidableEq σ] {S : SanEnv} {us : UrlPolicy → σ} {P : PolObj σ} (h : CacheOk S.E.U us P)
    (ht : TidyFields S.E.U P.cfg) (n : Node) : (P.sanitize S us n).2 = sanitizeRoot S (snapshot S.E.U P.cfg) n := by
  show sanitizeRoot S { (P.compile S.E.U us).2 with url := (P.compile S.E.U us).1.cfg.url } n = _
  rw [compile_cfg]
  have new : sanitizeRoot S { snapshot S.E.U P.cfg with url := P.cfg.url } n = sanitizeRoot S (snapshot S.E.U P.cfg) n := rfl
  unfold PolObj.compile
  split
  · next sig plan e =>
    split
    · next q =>
      obtain ⟨C, hC, a1, a2, a3, a4, a5⟩ := h _ _ e
      rw [a5]
      exact ((sameUse_of_sig (us := us) hC ht a1 a2 a3 (a4 ▸ q)).root n).trans new
    · exact new
  · exact new

/-- **C101.** A policy object is used and edited in any order. If the fields are tidy at each call, every call returns what a newly constructed
policy with the present field values returns: the plan kept from earlier calls is never out of date, whatever the edits. -/
theorem C101_present_partial {σ : Type} [DecidableEq σ] (S : SanEnv) (us : UrlPolicy → σ) (C : SanCfg) (ops : List PolOp)
    (h : ∀ c ∈ calls C ops, TidyFields S.E.U c.1) :
    List.Forall₂ (fun out c => ∃ Q : PolObj σ, newPolicy S.E.U c.1 = some Q ∧ out = (Q.sanitize S us c.2).2)
      (PolObj.run S us { cfg := C, cache := none } ops) (calls C ops) := by
  have gen : ∀ (ops : List PolOp) (P : PolObj σ), CacheOk S.E.U us P → (∀ c ∈ calls P.cfg ops, TidyFields S.E.U c.1) →
      List.Forall₂ (fun out c => ∃ Q : PolObj σ, newPolicy S.E.U c.1 = some Q ∧ out = (Q.sanitize S us c.2).2)
        (PolObj.run S us P ops) (calls P.cfg ops) := by
    intro ops
    induction ops with
    | nil => intro P _ _; exact List.Forall₂.nil
    | cons op ops ih =>
      intro P hP hc
      cases op with
      | edit e => exact ih { P with cfg := P.cfg.edit e } hP hc
      | sanitize n =>
        have ht : TidyFields S.E.U P.cfg := hc (P.cfg, n) List.mem_cons_self
        refine List.Forall₂.cons ⟨_, newPolicy_tidy ht, ?_⟩ ?_
        · rw [sanitize_present hP ht]
          exact (sanitize_present (P := { cfg := P.cfg, cache := none }) (fun _ _ e => by cases e) ht n).symm
        · have := ih (P.sanitize S us n).1 (compile_ok hP ht) (by
            rw [show (P.sanitize S us n).1.cfg = P.cfg from compile_cfg P]
            exact fun c hc' => hc c (List.mem_cons_of_mem _ hc'))
          rwa [show (P.sanitize S us n).1.cfg = P.cfg from compile_cfg P] at this
  exact gen ops { cfg := C, cache := none } (fun _ _ e => by cases e) h

/-- **C101.** Without edits there is no condition on the fields: however often a policy is used, each call returns what the first call would
have returned. -/
theorem C101_reuse {σ : Type} [DecidableEq σ] (S : SanEnv) (us : UrlPolicy → σ) (C : SanCfg) (docs : List Node) :
    PolObj.run S us { cfg := C, cache := none } (docs.map PolOp.sanitize) =
      docs.map fun n => (({ cfg := C, cache := none } : PolObj σ).sanitize S us n).2 := by
  have gen : ∀ (docs : List Node) (P : PolObj σ), P.cfg = C →
      (P.cache = none ∨ P.cache = some (polSig S.E.U us C, snapshot S.E.U C)) →
      PolObj.run S us P (docs.map PolOp.sanitize) = docs.map fun n => (({ cfg := C, cache := none } : PolObj σ).sanitize S us n).2 := by
    intro docs
    induction docs with
    | nil => intro P _ _; rfl
    | cons n docs ih =>
      intro P hc hP
      obtain ⟨cfg, cache⟩ := P
      dsimp only at hc hP
      subst hc
      have e : (PolObj.mk cfg cache).sanitize S us n = (PolObj.mk cfg none).sanitize S us n := by
        rcases hP with rfl | rfl
        · rfl
        · simp [PolObj.sanitize, PolObj.compile]
      show ((PolObj.mk cfg cache).sanitize S us n).2 :: PolObj.run S us ((PolObj.mk cfg cache).sanitize S us n).1 _ = _
      rw [List.map_cons, e]
      congr 1
      exact ih _ rfl (.inr rfl)
  exact gen docs _ rfl (.inl rfl)

/-! ### Whatever the edits -/

theorem effAttrs_mem {C : SanCfg} {k : Str} {s : List Str} {a : Str} (h : (k, s) ∈ effAttrs C) (ha : a ∈ s) :
    (k = c%"a" ∧ a = c%"rel") ∨ ∃ s', (k, s') ∈ C.allowedAttrs ∧ a ∈ s' := by
  unfold effAttrs at h
  dsimp only at h
  split at h
  · exact .inr ⟨s, h, ha⟩
  · split at h
    · obtain ⟨p, hp, e⟩ := List.mem_map.1 h
      split at e
      · next q =>
        cases e
        rcases List.mem_append.1 ha with r | r
        · exact .inr ⟨p.2, hp, r⟩
        · exact .inl ⟨q, List.mem_singleton.1 r⟩
      · subst e; exact .inr ⟨s, hp, ha⟩
    · next q =>
      rcases List.mem_append.1 h with r | r
      · exact .inr ⟨s, r, ha⟩
      · cases List.mem_singleton.1 r
        rcases List.mem_append.1 ha with r | r
        · have hn : C.allowedAttrs.lookup c%"a" = none := by
            rw [any_key] at q
            exact Option.not_isSome_iff_eq_none.1 q
          rw [hn] at r; cases r
        · exact .inl ⟨rfl, List.mem_singleton.1 r⟩

theorem noMore_of_sig {σ : Type} {U : Uni} {us : UrlPolicy → σ} {C C' : SanCfg} (ht : C'.allowedTags = C.allowedTags)
    (hc : C'.dropComments = C.dropComments) (hd : C'.dropDoctype = C.dropDoctype) (e : polSig U us C' = polSig U us C) :
    NoMore U { snapshot U C' with url := C.url } C := by
  refine ⟨ht, rfl, hc, hd, fun k s a hk ha => ?_⟩
  obtain ⟨p, hp, ep⟩ := List.mem_map.1 (show (k, s) ∈ lowerAttrs U (effAttrs C') from hk)
  cases ep
  obtain ⟨b, hb, rfl⟩ := List.mem_map.1 ha
  rcases effAttrs_mem (show (p.1, p.2) ∈ effAttrs C' from hp) hb with ⟨r1, r2⟩ | ⟨s', hs', hb'⟩
  · exact .inl ⟨r1, by rw [r2]⟩
  · right
    have hperm := perm_of_sort (congrArg PolSig.attrs e)
    obtain ⟨q, hq, eq⟩ := List.mem_map.1 (hperm.mem_iff.1 (List.mem_map.2 ⟨_, hs', rfl⟩))
    have e1 : U.lower q.1 = U.lower p.1 := congrArg Prod.fst eq
    have e2 : lowSig U q.2 = lowSig U s' := congrArg Prod.snd eq
    obtain ⟨a', ha', e3⟩ := List.mem_map.1 ((lowSig_perm e2).mem_iff.2 (List.mem_map.2 ⟨b, hb', rfl⟩))
    exact ⟨q.1, q.2, a', hq, ha', e1, e3⟩

/-- **C101.** Whatever the edits, tidy or not: every call sanitizes with a configuration that allows no elements other than those of the policy,
uses its present URL policy, and allows no attribute that the present fields do not list (up to case; `rel` on links may be added). -/
theorem C101_never_more {σ : Type} [DecidableEq σ] (S : SanEnv) (us : UrlPolicy → σ) (C : SanCfg) (ops : List PolOp) :
    List.Forall₂ (fun out c => ∃ C', NoMore S.E.U C' c.1 ∧ out = sanitizeRoot S C' c.2)
      (PolObj.run S us { cfg := C, cache := none } ops) (calls C ops) := by
  have gen : ∀ (ops : List PolOp) (P : PolObj σ), (∀ sig plan, P.cache = some (sig, plan) → ∃ C, C.allowedTags = P.cfg.allowedTags ∧
      C.dropComments = P.cfg.dropComments ∧ C.dropDoctype = P.cfg.dropDoctype ∧ sig = polSig S.E.U us C ∧ plan = snapshot S.E.U C) →
      List.Forall₂ (fun out c => ∃ C', NoMore S.E.U C' c.1 ∧ out = sanitizeRoot S C' c.2) (PolObj.run S us P ops) (calls P.cfg ops) := by
    intro ops
    induction ops with
    | nil => intro P _; exact List.Forall₂.nil
    | cons op ops ih =>
      intro P hP
      cases op with
      | edit e => exact ih { P with cfg := P.cfg.edit e } hP
      | sanitize n =>
        have hcfg : (P.sanitize S us n).1.cfg = P.cfg := compile_cfg P
        refine List.Forall₂.cons ⟨{ (P.compile S.E.U us).2 with url := P.cfg.url }, ?_, ?_⟩ ?_
        · have new : NoMore S.E.U { snapshot S.E.U P.cfg with url := P.cfg.url } P.cfg := noMore_of_sig (us := us) rfl rfl rfl rfl
          show NoMore S.E.U { (P.compile S.E.U us).2 with url := P.cfg.url } P.cfg
          unfold PolObj.compile
          split
          · next sig plan e =>
            split
            · next q =>
              obtain ⟨C, a1, a2, a3, a4, a5⟩ := hP _ _ e
              rw [a5]
              exact noMore_of_sig (us := us) a1 a2 a3 (a4 ▸ q)
            · exact new
          · exact new
        · show sanitizeRoot S { (P.compile S.E.U us).2 with url := (P.compile S.E.U us).1.cfg.url } n = _
          rw [compile_cfg]
        · rw [show calls P.cfg ops = calls (P.sanitize S us n).1.cfg ops by rw [hcfg]]
          refine ih (P.sanitize S us n).1 ?_
          rw [hcfg]
          intro sig plan e
          have e' : (P.compile S.E.U us).1.cache = some (sig, plan) := e
          unfold PolObj.compile at e'
          split at e'
          · next sig' plan' q =>
            split at e'
            · exact hP _ _ e'
            · cases e'; exact ⟨P.cfg, rfl, rfl, rfl, rfl, rfl⟩
          · cases e'; exact ⟨P.cfg, rfl, rfl, rfl, rfl, rfl⟩
  exact gen ops { cfg := C, cache := none } fun _ _ e => by cases e

/-! ### Witnesses -/

/-- A paragraph with text, a script and a style. -/
def reuseDoc : Node :=
  .doc [.elem c%"p" none [(c%"style", some c%"position:fixed")] [.text c%"a", .elem c%"script" none [] [.text c%"b"] false []] false []]

/-- A policy that allows paragraphs and drops scripts. -/
def reuseCfg : SanCfg := { allowedTags := [c%"p"], allowedAttrs := [(c%"p", [c%"id"])], dropContent := [c%"script"] }

/-- The edit that writes the dropped tag in upper case. -/
def upperEdit : Colls := ⟨[(c%"p", [c%"id"])], [c%"SCRIPT"], [], [], {}⟩

/-- The edit that allows `style` without listing properties. -/
def styleEdit : Colls := ⟨[(c%"p", [c%"id", c%"style"])], [c%"script"], [], [], {}⟩

/-- An edit that drops nothing and allows `class`. -/
def plainEdit : Colls := ⟨[(c%"p", [c%"class"])], [], [], [], {}⟩

mutual
/-- The attribute values and the text of a node. -/
def reuseText : Node → Str
  | .doc kids => reuseTextL kids
  | .text d => d
  | .elem _ _ as kids _ _ => as.flatMap (fun p => p.2.getD []) ++ reuseTextL kids
  | _ => []
/-- The same for a list. -/
def reuseTextL : List Node → Str
  | [] => []
  | n :: r => reuseText n ++ reuseTextL r
end

/-- **C101, the limit.** Names are only normalized by the constructor, and the comparison that keeps a plan ignores case: after the same edit, a
policy that was used before drops the contents of scripts, and one that was not used keeps them. -/
theorem C101_case_fails : ∃ (C : SanCfg) (e : Colls) (n : Node),
    ((PolObj.run SanEnv.sample (fun _ => ()) { cfg := C, cache := none } [.sanitize n, .edit e, .sanitize n]).map reuseText) = [c%"a", c%"a"] ∧
    ((PolObj.run SanEnv.sample (fun _ => ()) { cfg := C, cache := none } [.edit e, .sanitize n]).map reuseText) = [c%"ab"] :=
  ⟨reuseCfg, upperEdit, reuseDoc, by decide +kernel, by decide +kernel⟩

/-- **C101, the limit.** The constructor refuses a policy that allows `style` without CSS properties; an edit to the same field values is
accepted, and every inline style is then kept unchecked. -/
theorem C101_style_fails : ∃ (C : SanCfg) (e : Colls) (n : Node),
    (newPolicy (σ := Unit) Uni.sample C).isSome = true ∧ (newPolicy (σ := Unit) Uni.sample (C.edit e)).isNone = true ∧
    ((PolObj.run SanEnv.sample (fun _ => ()) { cfg := C, cache := none } [.edit e, .sanitize n]).map reuseText) = [c%"position:fixeda"] :=
  ⟨reuseCfg, styleEdit, reuseDoc, by decide +kernel, by decide +kernel, by decide +kernel⟩

/-- The hypotheses of `C101_present_partial` hold for a history with an edit, and the edit takes effect. -/
example : (∀ c ∈ calls reuseCfg [.sanitize reuseDoc, .edit plainEdit, .sanitize reuseDoc], TidyFields Uni.sample c.1) ∧
    ((PolObj.run SanEnv.sample (fun _ => ()) { cfg := reuseCfg, cache := none } [.sanitize reuseDoc, .edit plainEdit, .sanitize reuseDoc]).map reuseText)
      = [c%"a", c%"ab"] := by
  refine ⟨?_, by decide +kernel⟩
  intro c hc
  have hc' : c = (reuseCfg, reuseDoc) ∨ c = (reuseCfg.edit plainEdit, reuseDoc) := by
    simpa [calls] using hc
  rcases hc' with rfl | rfl
  · constructor <;> simp [reuseCfg, PlainName] <;> decide +kernel
  · constructor <;> simp [reuseCfg, plainEdit, SanCfg.edit, PlainName] <;> decide +kernel

end JH
