import Verif.Spec.Reuse
/-! Lemmas for C101: what a plan keeps is determined by the signature. -/
namespace JH
open Spec

theorem insertBy_perm {α : Type} (le : α → α → Bool) (x : α) (l : List α) : (insertBy le x l).Perm (x :: l) := by
  induction l with
  | nil => exact List.Perm.refl _
  | cons y ys ih =>
    unfold insertBy
    split
    · exact List.Perm.refl _
    · exact (List.Perm.cons y ih).trans (List.Perm.swap x y ys)

theorem sortBy_perm {α : Type} (le : α → α → Bool) (l : List α) : (sortBy le l).Perm l := by
  induction l with
  | nil => exact List.Perm.refl _
  | cons x xs ih => exact (insertBy_perm le x _).trans (List.Perm.cons x ih)

theorem perm_of_sort {α : Type} {le : α → α → Bool} {a b : List α} (h : sortBy le a = sortBy le b) : a.Perm b :=
  (sortBy_perm le a).symm.trans (h ▸ sortBy_perm le b)

/-! ### Sorted lists are canonical -/

theorem strLe_trans (a b c : Str) (h1 : strLe a b = true) (h2 : strLe b c = true) : strLe a c = true := by
  induction a generalizing b c with
  | nil => rfl
  | cons x a ih =>
    cases b with
    | nil => simp [strLe] at h1
    | cons y b =>
      cases c with
      | nil => simp [strLe] at h2
      | cons z c =>
        simp only [strLe, Bool.or_eq_true, Bool.and_eq_true, decide_eq_true_eq] at *
        rcases h1 with h1 | ⟨h1, h1'⟩ <;> rcases h2 with h2 | ⟨h2, h2'⟩
        · exact .inl (by omega)
        · exact .inl (by omega)
        · exact .inl (by omega)
        · exact .inr ⟨by omega, ih _ _ h1' h2'⟩

theorem strLe_total (a b : Str) : strLe a b = true ∨ strLe b a = true := by
  induction a generalizing b with
  | nil => exact .inl rfl
  | cons x a ih =>
    cases b with
    | nil => exact .inr rfl
    | cons y b =>
      simp only [strLe, Bool.or_eq_true, Bool.and_eq_true, decide_eq_true_eq] at *
      rcases Nat.lt_trichotomy x.toNat y.toNat with h | h | h
      · exact .inl (.inl h)
      · rcases ih b with k | k
        · exact .inl (.inr ⟨h, k⟩)
        · exact .inr (.inr ⟨h.symm, k⟩)
      · exact .inr (.inl h)

theorem strLe_antisymm (a b : Str) (h1 : strLe a b = true) (h2 : strLe b a = true) : a = b := by
  induction a generalizing b with
  | nil => cases b with
    | nil => rfl
    | cons y b => simp [strLe] at h2
  | cons x a ih =>
    cases b with
    | nil => simp [strLe] at h1
    | cons y b =>
      simp only [strLe, Bool.or_eq_true, Bool.and_eq_true, decide_eq_true_eq] at *
      have e : x.toNat = y.toNat := by omega
      have e' : x = y := Char.toNat_inj.1 e
      have k1 : strLe a b = true := by
        rcases h1 with q | q
        · omega
        · exact q.2
      have k2 : strLe b a = true := by
        rcases h2 with q | q
        · omega
        · exact q.2
      rw [e', ih b k1 k2]

theorem insertBy_sorted (x : Str) (l : List Str) (h : l.Pairwise fun a b => strLe a b = true) :
    (insertBy strLe x l).Pairwise fun a b => strLe a b = true := by
  induction l with
  | nil => simp [insertBy]
  | cons y ys ih =>
    unfold insertBy
    by_cases k : strLe x y = true
    · rw [if_pos k]
      refine List.pairwise_cons.2 ⟨fun z hz => ?_, h⟩
      rcases List.mem_cons.1 hz with e | e
      · exact e ▸ k
      · exact strLe_trans _ _ _ k (List.rel_of_pairwise_cons h e)
    · rw [if_neg k]
      refine List.pairwise_cons.2 ⟨fun z hz => ?_, ih (List.Pairwise.of_cons h)⟩
      rcases List.mem_cons.1 ((insertBy_perm _ _ _).mem_iff.1 hz) with e | e
      · exact e ▸ (strLe_total x y).resolve_left k
      · exact List.rel_of_pairwise_cons h e

theorem sortBy_sorted (l : List Str) : (sortBy strLe l).Pairwise fun a b => strLe a b = true := by
  induction l with
  | nil => exact List.Pairwise.nil
  | cons x xs ih => exact insertBy_sorted x _ ih

theorem sort_eq_of_perm {a b : List Str} (h : a.Perm b) : sortBy strLe a = sortBy strLe b :=
  List.Perm.eq_of_pairwise (fun _ _ _ _ => strLe_antisymm _ _) (sortBy_sorted a) (sortBy_sorted b)
    (((sortBy_perm _ a).trans h).trans (sortBy_perm _ b).symm)

theorem eraseDups_nodup {α : Type} [BEq α] [LawfulBEq α] (l : List α) : l.eraseDups.Nodup := by
  generalize e : l.length = n
  induction n using Nat.strongRecOn generalizing l with
  | ind n ih =>
    cases l with
    | nil => simp
    | cons a as =>
      rw [List.eraseDups_cons]
      refine List.nodup_cons.2 ⟨fun h => ?_, ih _ ?_ _ rfl⟩
      · simp at h
      · subst e
        exact Nat.lt_succ_of_le (List.length_filter_le _ _)

theorem nameTuple_eq {U : Uni} {a b : List Str} (h : ∀ x, x ∈ normSet U a ↔ x ∈ normSet U b) : nameTuple U a = nameTuple U b := by
  refine sort_eq_of_perm ?_
  refine (List.perm_ext_iff_of_nodup (eraseDups_nodup _) (eraseDups_nodup _)).2 fun x => ?_
  rw [List.mem_eraseDups, List.mem_eraseDups, h x]

/-! ### Dicts -/

theorem dictLookup_mem {α β : Type} [BEq α] [LawfulBEq α] {k : α} {v : β} {l : List (α × β)} (h : l.lookup k = some v) : (k, v) ∈ l := by
  induction l with
  | nil => simp at h
  | cons p l ih =>
    obtain ⟨a, b⟩ := p
    rw [List.lookup_cons] at h
    by_cases e : (k == a) = true
    · rw [e] at h
      simp only [Option.some.injEq] at h
      rw [eq_of_beq e, h]; exact List.mem_cons_self
    · rw [Bool.eq_false_iff.2 e] at h
      exact List.mem_cons_of_mem _ (ih h)

theorem dictMem_lookup {α β : Type} [BEq α] [LawfulBEq α] {k : α} {v : β} {l : List (α × β)} (hn : (l.map Prod.fst).Nodup) (h : (k, v) ∈ l) :
    l.lookup k = some v := by
  induction l with
  | nil => simp at h
  | cons p l ih =>
    obtain ⟨a, b⟩ := p
    rw [List.lookup_cons]
    rw [List.map_cons, List.nodup_cons] at hn
    rcases List.mem_cons.1 h with e | e
    · cases e; simp
    · have : (k == a) = false := by
        refine Bool.eq_false_iff.2 fun q => hn.1 ?_
        rw [← eq_of_beq q]
        exact List.mem_map.2 ⟨(k, v), e, rfl⟩
      rw [this]; exact ih hn.2 e

theorem lookup_perm {α β : Type} [BEq α] [LawfulBEq α] {a b : List (α × β)} (h : a.Perm b) (ha : (a.map Prod.fst).Nodup) (k : α) :
    a.lookup k = b.lookup k := by
  have hb : (b.map Prod.fst).Nodup := (h.map Prod.fst).nodup_iff.1 ha
  rcases ea : a.lookup k with _ | v
  · rcases eb : b.lookup k with _ | v
    · rfl
    · have := dictMem_lookup ha (h.mem_iff.2 (dictLookup_mem eb))
      rw [ea] at this; cases this
  · exact (dictMem_lookup hb (h.mem_iff.1 (dictLookup_mem ea))).symm

theorem lookup_mapVal {α β γ : Type} [BEq α] (f : β → γ) (l : List (α × β)) (k : α) :
    (l.map fun p => (p.1, f p.2)).lookup k = (l.lookup k).map f := by
  induction l with
  | nil => rfl
  | cons p l ih =>
    rw [List.map_cons, List.lookup_cons, List.lookup_cons, ih]
    split <;> rfl

/-- The attribute names of two dicts agree, key by key. -/
def SameDict (a b : List (Str × List Str)) : Prop := ∀ k, (a.lookup k).map (sortBy strLe) = (b.lookup k).map (sortBy strLe)

/-- Keys of a tidy dict. -/
structure DictOk (U : Uni) (a : List (Str × List Str)) : Prop where
  nodup : (a.map Prod.fst).Nodup
  lower : ∀ p ∈ a, U.lower p.1 = p.1

theorem map_sort_cases {o o' : Option (List Str)} (h : o.map (sortBy strLe) = o'.map (sortBy strLe)) :
    (o = none ∧ o' = none) ∨ ∃ s t, o = some s ∧ o' = some t ∧ s.Perm t := by
  cases o with
  | none =>
    cases o' with
    | none => exact .inl ⟨rfl, rfl⟩
    | some t => cases h
  | some s =>
    cases o' with
    | none => cases h
    | some t => exact .inr ⟨s, t, rfl, rfl, perm_of_sort (Option.some.inj h)⟩

theorem SameDict.mem {a b : List (Str × List Str)} (h : SameDict a b) (k x : Str) : x ∈ (a.lookup k).getD [] ↔ x ∈ (b.lookup k).getD [] := by
  rcases map_sort_cases (h k) with ⟨e1, e2⟩ | ⟨s, t, e1, e2, e3⟩ <;> rw [e1, e2]
  exact e3.mem_iff

theorem SameDict.isSome {a b : List (Str × List Str)} (h : SameDict a b) (k : Str) : (a.lookup k).isSome = (b.lookup k).isSome := by
  have := congrArg Option.isSome (h k)
  simpa using this

theorem SameDict.contains {a b : List (Str × List Str)} (h : SameDict a b) (k x : Str) :
    ((a.lookup k).getD []).contains x = ((b.lookup k).getD []).contains x := by
  rw [Bool.eq_iff_iff, List.contains_iff_mem, List.contains_iff_mem]
  exact h.mem k x

theorem any_key {a : List (Str × List Str)} {k : Str} : a.any (fun p => p.1 = k) = (a.lookup k).isSome := by
  induction a with
  | nil => rfl
  | cons p a ih =>
    rw [List.any_cons, List.lookup_cons, ih]
    by_cases e : p.1 = k
    · simp [e]
    · have : (k == p.1) = false := by simpa using fun h => e h.symm
      simp [e, this]

theorem lookup_append {α β : Type} [BEq α] (a b : List (α × β)) (k : α) : (a ++ b).lookup k = (a.lookup k).or (b.lookup k) := by
  induction a with
  | nil => simp
  | cons p a ih =>
    rw [List.cons_append, List.lookup_cons, List.lookup_cons, ih]
    split <;> rfl

theorem lookup_upd (a : List (Str × List Str)) (key k : Str) (f : List Str → List Str) :
    (a.map fun p => if p.1 = key then (p.1, f p.2) else p).lookup k = if k = key then (a.lookup k).map f else a.lookup k := by
  induction a with
  | nil => simp
  | cons p a ih =>
    rw [List.map_cons, List.lookup_cons, List.lookup_cons, ih]
    by_cases e : p.1 = key
    · rw [if_pos e]
      by_cases q : k = p.1
      · subst q; simp [e]
      · have : (k == p.1) = false := by simpa using q
        rw [this]
    · rw [if_neg e]
      by_cases q : k = p.1
      · subst q; simp [e]
      · have : (k == p.1) = false := by simpa using q
        rw [this]

/-- Is the `rel` attribute to be added to the allowed attributes of links? -/
def addsRel (C : SanCfg) : Bool :=
  !(C.forceRel.isEmpty || ((C.allowedAttrs.lookup c%"a").getD []).contains c%"rel" || ((C.allowedAttrs.lookup c%"*").getD []).contains c%"rel")

theorem effAttrs_lookup (C : SanCfg) (k : Str) : (effAttrs C).lookup k =
    if addsRel C = true ∧ k = c%"a" then some ((C.allowedAttrs.lookup c%"a").getD [] ++ [c%"rel"]) else C.allowedAttrs.lookup k := by
  unfold effAttrs
  unfold addsRel
  dsimp only
  generalize (C.forceRel.isEmpty || ((C.allowedAttrs.lookup c%"a").getD []).contains c%"rel" || ((C.allowedAttrs.lookup c%"*").getD []).contains c%"rel") = b
  cases b with
  | true => rw [if_pos rfl, if_neg (by simp)]
  | false =>
    rw [if_neg (by simp)]
    by_cases h : C.allowedAttrs.any (fun p => p.1 = c%"a") = true
    · rw [if_pos h, lookup_upd C.allowedAttrs c%"a" k (· ++ [c%"rel"])]
      by_cases e : k = c%"a"
      · rw [if_pos e, if_pos ⟨rfl, e⟩, e]
        rw [any_key] at h
        obtain ⟨v, hv⟩ := Option.isSome_iff_exists.1 h
        rw [hv]; rfl
      · rw [if_neg e, if_neg fun q => e q.2]
    · rw [if_neg h, lookup_append]
      rw [any_key] at h
      have hn : C.allowedAttrs.lookup c%"a" = none := Option.not_isSome_iff_eq_none.1 h
      by_cases e : k = c%"a"
      · rw [if_pos ⟨rfl, e⟩, e, hn]; rfl
      · rw [if_neg fun q => e q.2, List.lookup_cons]
        have : (k == c%"a") = false := by simpa using e
        rw [this]
        simp

theorem effAttrs_keys (C : SanCfg) : (effAttrs C).map Prod.fst = C.allowedAttrs.map Prod.fst ∨
    ((effAttrs C).map Prod.fst = C.allowedAttrs.map Prod.fst ++ [c%"a"] ∧ c%"a" ∉ C.allowedAttrs.map Prod.fst) := by
  unfold effAttrs
  dsimp only
  split
  · exact .inl rfl
  · split
    · left
      rw [List.map_map]
      refine List.map_congr_left fun p _ => ?_
      simp only [Function.comp]
      split <;> rfl
    · next h =>
      right
      refine ⟨by simp, fun q => h ?_⟩
      obtain ⟨p, hp, e⟩ := List.mem_map.1 q
      exact List.any_eq_true.2 ⟨p, hp, decide_eq_true e⟩

theorem lower_lit (U : Uni) {s : Str} (h : s.all isAscii = true) (h' : lowerA s = s) : U.lower s = s := by rw [U.lower_ascii s h, h']

theorem effAttrs_ok {U : Uni} {C : SanCfg} (h : DictOk U C.allowedAttrs) : DictOk U (effAttrs C) := by
  have hk : ∀ p ∈ effAttrs C, p.1 ∈ C.allowedAttrs.map Prod.fst ∨ p.1 = c%"a" := by
    intro p hp
    have : p.1 ∈ (effAttrs C).map Prod.fst := List.mem_map.2 ⟨p, hp, rfl⟩
    rcases effAttrs_keys C with e | e
    · rw [e] at this; exact .inl this
    · rw [e.1] at this
      rcases List.mem_append.1 this with q | q
      · exact .inl q
      · exact .inr (List.mem_singleton.1 q)
  constructor
  · rcases effAttrs_keys C with e | e
    · rw [e]; exact h.nodup
    · rw [e.1]
      refine List.nodup_append.2 ⟨h.nodup, by simp, fun a ha b hb q => ?_⟩
      rw [List.mem_singleton.1 hb] at q
      exact e.2 (q ▸ ha)
  · intro p hp
    rcases hk p hp with q | q
    · obtain ⟨x, hx, e⟩ := List.mem_map.1 q
      rw [← e]; exact h.lower x hx
    · rw [q]; exact lower_lit U (by decide) (by decide)

theorem effAttrs_same {C C' : SanCfg} (h : SameDict C.allowedAttrs C'.allowedAttrs) (hr : C.forceRel.isEmpty = C'.forceRel.isEmpty) :
    SameDict (effAttrs C) (effAttrs C') := by
  have ha : addsRel C = addsRel C' := by
    unfold addsRel
    rw [hr, h.contains c%"a" c%"rel", h.contains c%"*" c%"rel"]
  intro k
  rw [effAttrs_lookup, effAttrs_lookup, ha]
  split
  · simp only [Option.map_some, Option.some.injEq]
    refine sort_eq_of_perm (List.Perm.append_right _ ?_)
    have := h c%"a"
    rcases map_sort_cases this with ⟨e1, e2⟩ | ⟨s, t, e1, e2, e3⟩ <;> rw [e1, e2]
    exact e3
  · exact h k

theorem allowedByTag_lookup {U : Uni} {a : List (Str × List Str)} (h : DictOk U a) (t : Str) :
    (allowedByTag U a).lookup t = if t = c%"*" then none else (a.lookup t).map ((a.lookup c%"*").getD [] ++ ·) := by
  generalize hg : (a.lookup c%"*").getD [] = g
  have hl : allowedByTag U a = ((a.filter fun p => p.1 ≠ c%"*").map fun p => (p.1, g ++ p.2)).reverse := by
    unfold allowedByTag
    rw [hg]
    congr 1
    refine List.map_congr_left fun p hp => ?_
    rw [h.lower p (List.mem_filter.1 hp).1]
  rw [hl]
  generalize hb : ((a.filter fun p => p.1 ≠ c%"*").map fun p => (p.1, g ++ p.2)) = b
  have hn : (b.map Prod.fst).Nodup := by
    rw [← hb, List.map_map]
    exact (List.Sublist.map Prod.fst (List.filter_sublist (l := a))).nodup h.nodup
  rw [lookup_perm (List.reverse_perm b) (by rw [List.map_reverse]; exact (List.reverse_perm _).nodup_iff.2 hn) t, ← hb, lookup_mapVal]
  by_cases e : t = c%"*"
  · rw [if_pos e]
    rcases q : (a.filter fun p => p.1 ≠ c%"*").lookup t with _ | v
    · exact congrArg (Option.map (g ++ ·)) q
    · have := (List.mem_filter.1 (dictLookup_mem q)).2
      rw [e] at this
      simp at this
  · rw [if_neg e]
    congr 1
    rcases q : (a.filter fun p => p.1 ≠ c%"*").lookup t with _ | v
    · rcases q' : a.lookup t with _ | v
      · exact q
      · have hm : (t, v) ∈ a.filter fun p => p.1 ≠ c%"*" := List.mem_filter.2 ⟨dictLookup_mem q', decide_eq_true e⟩
        have hf : ((a.filter fun p => p.1 ≠ c%"*").map Prod.fst).Nodup :=
          (List.Sublist.map Prod.fst (List.filter_sublist (l := a))).nodup h.nodup
        rw [dictMem_lookup hf hm] at q
        cases q
    · exact q.trans (dictMem_lookup h.nodup (List.mem_filter.1 (dictLookup_mem q)).1).symm

theorem allowedFor_same {U : Uni} {a b : List (Str × List Str)} (ha : DictOk U a) (hb : DictOk U b) (h : SameDict a b) (t x : Str) :
    (allowedFor U a t).contains x = (allowedFor U b t).contains x := by
  have key : ∀ t, (∃ s s', (allowedByTag U a).lookup t = some s ∧ (allowedByTag U b).lookup t = some s' ∧ s.contains x = s'.contains x) ∨
      ((allowedByTag U a).lookup t = none ∧ (allowedByTag U b).lookup t = none) := by
    intro t
    rw [allowedByTag_lookup ha, allowedByTag_lookup hb]
    by_cases e : t = c%"*"
    · exact .inr ⟨if_pos e, if_pos e⟩
    · rw [if_neg e, if_neg e]
      have h1 := h t
      have h2 := h.contains c%"*" x
      rcases map_sort_cases h1 with ⟨e1, e2⟩ | ⟨s, s', e1, e2, hp⟩ <;> rw [e1, e2]
      · exact .inr ⟨rfl, rfl⟩
      · refine .inl ⟨_, _, rfl, rfl, ?_⟩
        rw [Bool.eq_iff_iff, List.contains_iff_mem, List.contains_iff_mem] at h2 ⊢
        rw [List.mem_append, List.mem_append, h2, hp.mem_iff]
  unfold allowedFor
  rcases key t with ⟨s, s', e1, e2, e3⟩ | ⟨e1, e2⟩
  · rw [e1, e2]; exact e3
  · rw [e1, e2]
    dsimp only
    rcases key (U.lower t) with ⟨s, s', e1, e2, e3⟩ | ⟨e1, e2⟩
    · rw [e1, e2]; exact e3
    · rw [e1, e2]; exact h.contains c%"*" x

theorem allowlist_same {U : Uni} {a b : List (Str × List Str)} (ha : DictOk U a) (hb : DictOk U b) (h : SameDict a b) (t : Str) (as : Attrs) :
    allowlistAttrs U a t as = allowlistAttrs U b t as := by
  have hc : ∀ x, (allowedFor U a t).contains x = (allowedFor U b t).contains x := allowedFor_same ha hb h t
  have hs : allowStep U (allowedFor U a t) = allowStep U (allowedFor U b t) := by
    funext out p
    unfold allowStep
    rw [hc, hc]
  unfold allowlistAttrs
  dsimp only
  rw [hs]
  simp only [hc]

/-! ### Sanitizing with two configurations that agree -/

/-- Two configurations between which sanitizing cannot distinguish. -/
structure SameUse (S : SanEnv) (C C' : SanCfg) : Prop where
  dec : ∀ name, decision S.E.U C name = decision S.E.U C' name
  attrs : ∀ name as, sanAttrs S C name as = sanAttrs S C' name as
  rel : C.forceRel = C'.forceRel
  handling : C.handling = C'.handling
  ops : sanOps C = sanOps C'
  raw : C.allowedTags.any rawtextElements.contains = C'.allowedTags.any rawtextElements.contains

theorem SameUse.op {S : SanEnv} {C C' : SanCfg} (h : SameUse S C C') : applyOp S C = applyOp S C' := by
  have ha : sanAttrs S C = sanAttrs S C' := funext fun n => funext fun as => h.attrs n as
  funext path foreign idx op n
  cases op <;> simp only [applyOp, h.dec, ha, h.rel, h.handling]

theorem SameUse.runOps {S : SanEnv} {C C' : SanCfg} (h : SameUse S C C') (path : List Frame) (fg : Bool) (idx : Nat) (ops : List Op) (n : Node) :
    JH.runOps S C path fg idx ops n = JH.runOps S C' path fg idx ops n := by
  induction ops generalizing idx n with
  | nil => rfl
  | cons op ops ih =>
    simp only [JH.runOps, h.op]
    split
    · exact ih _ _
    · rfl

theorem SameUse.walk {S : SanEnv} {C C' : SanCfg} (h : SameUse S C C') (ops : List Op) (fuel : Nat) (up : List Frame) (fc : Bool)
    (left : List Node) (l : List (Node × Nat)) : walkF S C ops fuel up fc left l = walkF S C' ops fuel up fc left l := by
  induction fuel generalizing up fc left l with
  | zero => rfl
  | succ fuel ih =>
    cases l with
    | nil => rfl
    | cons p rest =>
      obtain ⟨n, s⟩ := p
      simp only [walkF, h.runOps, ih]

theorem SameUse.kids {S : SanEnv} {C C' : SanCfg} (h : SameUse S C C') (kids : List Node) : sanitizeKids S C kids = sanitizeKids S C' kids := by
  simp only [sanitizeKids, transformKids, h.ops, h.raw, h.walk]

theorem SameUse.root {S : SanEnv} {C C' : SanCfg} (h : SameUse S C C') (n : Node) : sanitizeRoot S C n = sanitizeRoot S C' n := by
  cases n <;> simp only [sanitizeRoot, h.kids]

end JH
