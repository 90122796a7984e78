import Verif.Lemmas.DomClone
/-! Deep clones: the contents of a template. -/
namespace JH

theorem chain_lt {h : Heap} (w : WF h) {s n : Nat} (hc : Chain h s n) (hs : s < h.next) : n < h.next := by
  induction hc with
  | refl _ => exact hs
  | up h1 _ ih => exact ih (w.lt_of_par h1).2

theorem unfilled_knd {h : Heap} {c b : Nat} (u : Unfilled h c b) : h.knd b = h.knd c ∧ (h.obj b).ns = (h.obj c).ns :=
  ⟨congrArg Spec.Label.kind u.lab, congrArg Spec.Label.ns u.lab⟩

theorem unfilled_cont {h : Heap} (i : Inv h) {c b : Nat} (u : Unfilled h c b) : (h.cont b).isSome = (h.cont c).isSome := by
  obtain ⟨h1, h2⟩ := unfilled_knd u
  by_cases ht : h.knd c = .template
  · have h3 := i.shape.tplc c ht
    have h4 := i.shape.tplc b (h1.trans ht)
    rw [h2] at h4
    rw [Bool.eq_iff_iff]
    exact h4.symm.trans h3
  · have e1 : h.cont c = none := by
      rcases hc : h.cont c with _ | f
      · rfl
      · exact absurd (i.wf.tpl c f hc).1 ht
    have e2 : h.cont b = none := by
      rcases hc : h.cont b with _ | f
      · rfl
      · exact absurd (h1.symm.trans (i.wf.tpl b f hc).1) ht
    rw [e1, e2]

/-- What `cloneContent` does when there are contents. -/
theorem cloneContent_some {h : Heap} (i : Inv h) {src tgt c f0 : Nat} (u : Unfilled h src tgt) (hsrc : h.cont src = some c) (htgt : h.cont tgt = some f0)
    (hne : src ≠ tgt) :
    ∃ h' b, h.cloneContent src tgt = (h', [(c, b)]) ∧ Inv h' ∧ Grow h h' (· ∈ cells h tgt) ∧ b = h.next ∧ Unfilled h' c b ∧ h'.cont b = none ∧
      h'.cont tgt = some b ∧ (∀ n, h'.kids n = h.kids n) ∧ (∀ n, n < h.next → n ≠ f0 → h'.label n = h.label n) ∧ (∀ n, n ≠ tgt → h'.cont n = h.cont n) ∧
      h'.next = h.next + 1 := by
  have hcl := (i.wf.cont_lt hsrc).2
  have hkf := (i.wf.tpl src c hsrc)
  obtain ⟨uk, -⟩ := unfilled_knd u
  have hkt : h.knd tgt = .template := uk.trans hkf.1
  have htl := u.lt
  obtain ⟨f1, f2, f3, f4⟩ := u.cont f0 htgt
  have hf0l := (i.wf.cont_lt htgt).2
  have hE : h.cloneContent src tgt = (((((h.shallow c none).1.mod f0 fun _ => {}).setContent tgt (some (h.shallow c none).2)).setParent (h.shallow c none).2 (some tgt)),
      [(c, (h.shallow c none).2)]) := by
    unfold Heap.cloneContent
    have e1 : (h.obj src).content = some c := hsrc
    have e2 : (h.obj tgt).content = some f0 := htgt
    have e3 : (h.obj src).kind = .template := hkf.1
    have e4 : (h.obj tgt).kind = .template := hkt
    rw [e1]; dsimp only
    rw [if_pos ⟨e3, e4⟩, e2]
  rw [hE]
  have n := shallow_new h c none
  have un := shallow_unfilled i hcl
  generalize h.shallow c none = r at n un
  obtain ⟨h1, b⟩ := r
  dsimp only at n un ⊢
  have eb := n.eq
  have hck : (h.obj c).kind = .fragment := hkf.2
  rw [hck] at n
  have nn := n.nofrag (by intro h; cases h.1)
  have hnd : h1.nextDict = h.nextDict + 1 := nn.2
  have nkids : (h1.obj b).children = some [] := n.kids
  have natt : (h1.obj b).attrs = some h.nextDict := n.att
  have ncont : (h1.obj b).content = none := by rw [n.cont, if_neg]; intro h; cases h.1
  have g1 := new_grow i.wf n (fun _ => False)
  have hot : ∀ m, m ≠ b → h1.obj m = h.obj m := by
    intro m hm
    rcases Nat.lt_or_ge m h.next with h2 | h2
    · exact n.old m h2
    · exact n.beyond m (by omega) h2
  have htb : tgt ≠ b := by omega
  have hfb : f0 ≠ b := by omega
  have hft : f0 ≠ tgt := by
    rintro rfl
    have := (i.wf.tpl _ _ htgt).2
    rw [hkt] at this; cases this
  have hcf : c ≠ f0 := by rintro rfl; exact hne (f4 src hsrc)
  have hct : c ≠ tgt := by rintro rfl; rw [hkt] at hkf; cases hkf.2
  have hcb : c ≠ b := by omega
  generalize hh : ((((h1.mod f0 fun _ => {}).setContent tgt (some b)).setParent b (some tgt))) = h4
  have hnx : h4.next = h.next + 1 := by rw [← hh]; exact nn.1
  have hndx : h4.nextDict = h.nextDict + 1 := by rw [← hh]; exact hnd
  have hdict : h4.dict = h1.dict := by rw [← hh]; rfl
  have hob : h4.obj b = { h1.obj b with parent := some tgt } := by
    rw [← hh]
    unfold Heap.setParent Heap.setContent
    rw [obj_mod, if_pos rfl, obj_mod, if_neg (Ne.symm htb), obj_mod, if_neg (Ne.symm hfb)]
  have hotg : h4.obj tgt = { h.obj tgt with content := some b } := by
    rw [← hh]
    unfold Heap.setParent Heap.setContent
    rw [obj_mod, if_neg htb, obj_mod, if_pos rfl, obj_mod, if_neg (Ne.symm hft), hot tgt htb]
  have hof : h4.obj f0 = {} := by
    rw [← hh]
    unfold Heap.setParent Heap.setContent
    rw [obj_mod, if_neg hfb, obj_mod, if_neg hft, obj_mod, if_pos rfl]
  have hoo : ∀ m, m ≠ b → m ≠ tgt → m ≠ f0 → h4.obj m = h.obj m := by
    intro m h2 h3 h4
    rw [← hh]
    unfold Heap.setParent Heap.setContent
    rw [obj_mod, if_neg h2, obj_mod, if_neg h3, obj_mod, if_neg h4, hot m h2]
  have hbn : h.obj b = {} := i.wf.fresh b (by omega)
  have par4 : ∀ m, h4.par m = if m = b then some tgt else if m = f0 then none else h.par m := by
    intro m
    unfold Heap.par
    by_cases e1 : m = b
    · rw [if_pos e1, e1, hob]
    · rw [if_neg e1]
      by_cases e2 : m = f0
      · rw [if_pos e2, e2, hof]
      · rw [if_neg e2]
        by_cases e3 : m = tgt
        · rw [e3, hotg]
        · rw [hoo m e1 e3 e2]
  have kids4 : ∀ m, h4.kids m = h.kids m := by
    intro m
    unfold Heap.kids
    by_cases e1 : m = b
    · rw [e1, hob, hbn]; dsimp only; rw [nkids]; rfl
    · by_cases e2 : m = f0
      · rw [e2, hof]; exact f1.symm
      · by_cases e3 : m = tgt
        · rw [e3, hotg]
        · rw [hoo m e1 e3 e2]
  have knd4 : ∀ m, h4.knd m = if m = b then .fragment else if m = f0 then .text else h.knd m := by
    intro m
    unfold Heap.knd
    by_cases e1 : m = b
    · rw [if_pos e1, e1, hob]; exact n.kind
    · rw [if_neg e1]
      by_cases e2 : m = f0
      · rw [if_pos e2, e2, hof]
      · rw [if_neg e2]
        by_cases e3 : m = tgt
        · rw [e3, hotg]
        · rw [hoo m e1 e3 e2]
  have cont4 : ∀ m, h4.cont m = if m = tgt then some b else h.cont m := by
    intro m
    unfold Heap.cont
    by_cases e1 : m = b
    · rw [if_neg (by rw [e1]; exact Ne.symm htb), e1, hob, hbn]; exact ncont
    · by_cases e2 : m = f0
      · rw [e2, hof, if_neg hft]; exact f2.symm
      · by_cases e3 : m = tgt
        · rw [if_pos e3, e3, hotg]
        · rw [if_neg e3, hoo m e1 e3 e2]
  have att4 : ∀ m, (h4.obj m).attrs = if m = b then some h.nextDict else if m = f0 then none else (h.obj m).attrs := by
    intro m
    by_cases e1 : m = b
    · rw [if_pos e1, e1, hob]; exact natt
    · rw [if_neg e1]
      by_cases e2 : m = f0
      · rw [if_pos e2, e2, hof]
      · rw [if_neg e2]
        by_cases e3 : m = tgt
        · rw [e3, hotg]
        · rw [hoo m e1 e3 e2]
  have kpar : ∀ p m, m ∈ h.kids p → m ≠ b ∧ m ≠ f0 := by
    intro p m hm
    refine ⟨?_, ?_⟩
    · rintro rfl; have := (i.wf.kid_lt hm).2; omega
    · rintro rfl
      have h2 := i.wf.back p _ hm
      rw [f3] at h2
      injection h2 with h2
      rw [← h2, u.kids] at hm; cases hm
  have cfb : ∀ t f, t ≠ tgt → h.cont t = some f → t ≠ b ∧ t ≠ f0 ∧ f ≠ b ∧ f ≠ f0 := by
    intro t f ht hc
    have h2 := i.wf.cont_lt hc
    refine ⟨by omega, ?_, by omega, ?_⟩
    · rintro rfl; rw [f2] at hc; cases hc
    · rintro rfl; exact ht (f4 t hc)
  have hwf : WF h4 := by
    refine ⟨?_, ?_, ?_, ?_, ?_, ?_, ?_, ?_, ?_⟩
    · intro p m hm
      rw [kids4] at hm
      obtain ⟨h2, h3⟩ := kpar p m hm
      rw [par4, if_neg h2, if_neg h3]; exact i.wf.back p m hm
    · intro p; rw [kids4]; exact i.wf.once p
    · intro m p hp
      rw [par4] at hp
      rw [kids4, cont4]
      by_cases e1 : m = b
      · rw [if_pos e1] at hp
        injection hp with hp
        right; rw [if_pos hp.symm, e1]
      · rw [if_neg e1] at hp
        by_cases e2 : m = f0
        · rw [if_pos e2] at hp; cases hp
        · rw [if_neg e2] at hp
          rcases i.wf.up m p hp with h2 | h2
          · exact .inl h2
          · right
            rw [if_neg]
            · exact h2
            · rintro rfl
              rw [htgt] at h2; injection h2 with h2; exact e2 h2.symm
    · apply rooted_change i.wf.rooted tgt
      intro m
      rw [par4]
      by_cases e1 : m = b
      · rw [if_pos e1]
        refine .inr (.inr ⟨rfl, ?_⟩)
        intro hc
        have := chain_lt i.wf hc htl
        omega
      · rw [if_neg e1]
        by_cases e2 : m = f0
        · rw [if_pos e2]; exact .inr (.inl rfl)
        · rw [if_neg e2]; exact .inl rfl
    · obtain ⟨r, hr⟩ := i.wf.rank
      apply rank_change hr tgt (r b)
      intro m
      rw [par4]
      by_cases e1 : m = b
      · rw [if_pos e1]
        refine .inr (.inr ⟨rfl, ?_, Nat.le_of_eq (by rw [e1])⟩)
        intro hc
        have := chain_lt i.wf hc htl
        omega
      · rw [if_neg e1]
        by_cases e2 : m = f0
        · rw [if_pos e2]; exact .inr (.inl rfl)
        · rw [if_neg e2]; exact .inl rfl
    · intro p m hm
      rw [kids4] at hm
      obtain ⟨h2, h3⟩ := kpar p m hm
      rw [knd4, if_neg h2, if_neg h3]; exact i.wf.nofrag p m hm
    · intro t f htf
      rw [cont4] at htf
      by_cases e : t = tgt
      · rw [if_pos e] at htf
        injection htf with htf
        rw [knd4, knd4, e, if_neg htb, if_neg (Ne.symm hft), if_pos htf.symm]
        exact ⟨hkt, rfl⟩
      · rw [if_neg e] at htf
        obtain ⟨h2, h3, h5, h6⟩ := cfb t f e htf
        rw [knd4, knd4, if_neg h2, if_neg h3, if_neg h5, if_neg h6]
        exact i.wf.tpl t f htf
    · intro m hm
      rw [knd4] at hm
      rw [kids4]
      by_cases e1 : m = b
      · rw [if_pos e1] at hm; cases hm
      · rw [if_neg e1] at hm
        by_cases e2 : m = f0
        · rw [e2]; exact f1
        · rw [if_neg e2] at hm; exact i.wf.leaf m hm
    · intro m hm
      rw [hnx] at hm
      rw [hoo m (by omega) (by omega) (by omega)]
      exact i.wf.fresh m (by omega)
  have hshape : Shape h4 := by
    refine ⟨?_, ?_, ?_, ?_, ?_⟩
    · intro m
      rw [knd4]
      by_cases e1 : m = b
      · rw [if_pos e1, e1, hob]; dsimp only; rw [nkids]; rfl
      · rw [if_neg e1]
        by_cases e2 : m = f0
        · rw [if_pos e2, e2, hof]; rfl
        · rw [if_neg e2]
          by_cases e3 : m = tgt
          · rw [e3, hotg]; exact i.shape.cls tgt
          · rw [hoo m e1 e3 e2]; exact i.shape.cls m
    · intro m
      rw [knd4, att4]
      by_cases e1 : m = b
      · rw [if_pos e1, if_pos e1]; rfl
      · rw [if_neg e1, if_neg e1]
        by_cases e2 : m = f0
        · rw [if_pos e2, if_pos e2]; rfl
        · rw [if_neg e2, if_neg e2]; exact i.shape.att m
    · intro m d hd
      rw [att4] at hd
      rw [hndx]
      by_cases e1 : m = b
      · rw [if_pos e1] at hd; injection hd with hd; omega
      · rw [if_neg e1] at hd
        by_cases e2 : m = f0
        · rw [if_pos e2] at hd; cases hd
        · rw [if_neg e2] at hd; have := i.shape.dlt m d hd; omega
    · intro m m' d hd hd'
      have key : ∀ x, (h4.obj x).attrs = some d → (x = b ∧ d = h.nextDict) ∨ ((h.obj x).attrs = some d ∧ d < h.nextDict) := by
        intro x hx
        rw [att4] at hx
        by_cases e1 : x = b
        · rw [if_pos e1] at hx; injection hx with hx; exact .inl ⟨e1, hx.symm⟩
        · rw [if_neg e1] at hx
          by_cases e2 : x = f0
          · rw [if_pos e2] at hx; cases hx
          · rw [if_neg e2] at hx; exact .inr ⟨hx, i.shape.dlt x d hx⟩
      rcases key m hd with ⟨h2, h3⟩ | ⟨h2, h3⟩ <;> rcases key m' hd' with ⟨h5, h6⟩ | ⟨h5, h6⟩
      · rw [h2, h5]
      · omega
      · omega
      · exact i.shape.own m m' d h2 h5
    · intro t ht
      rw [knd4] at ht
      rw [cont4]
      by_cases e1 : t = b
      · rw [if_pos e1] at ht; cases ht
      · rw [if_neg e1] at ht
        by_cases e2 : t = f0
        · rw [if_pos e2] at ht; cases ht
        · rw [if_neg e2] at ht
          by_cases e3 : t = tgt
          · rw [if_pos e3, e3, hotg]
            have := i.shape.tplc tgt hkt
            rw [htgt] at this
            simpa using this
          · rw [if_neg e3, hoo t e1 e3 e2]; exact i.shape.tplc t ht
  have hgrow : Grow h h4 (· ∈ cells h tgt) := by
    refine ⟨by omega, by omega, ?_, ?_, ?_, ?_, ?_, ?_⟩
    · intro m hm hM
      unfold cells at hM
      rw [htgt] at hM
      simp only [Option.toList, List.mem_cons, List.not_mem_nil, or_false, not_or] at hM
      exact hoo m (by omega) hM.1 hM.2
    · intro d hd; rw [hdict]; exact g1.dict d hd
    · intro t f hf hc
      rw [cont4] at hc
      split at hc
      · injection hc with hc; omega
      · exact hc
    · intro m d hd ha
      rw [att4] at ha
      split at ha
      · injection ha with ha; omega
      · split at ha
        · cases ha
        · exact ha
    · intro hho t f hc
      rw [cont4] at hc
      rw [par4]
      by_cases e : t = tgt
      · rw [if_pos e] at hc
        injection hc with hc
        rw [if_pos hc.symm, e]
      · rw [if_neg e] at hc
        obtain ⟨-, -, h5, h6⟩ := cfb t f e hc
        rw [if_neg h5, if_neg h6]; exact hho t f hc
    · intro m p hm hp
      rw [par4, if_neg (by omega)] at hp
      split at hp
      · cases hp
      · exact hp
  have hlab : ∀ m, m < h.next → m ≠ f0 → h4.label m = h.label m := by
    intro m hm hmf
    have e1 : h4.label m = h1.label m := by
      refine label_skin hdict ?_
      by_cases e : m = tgt
      · rw [e, hotg, hot tgt htb]
      · rw [hoo m (by omega) e hmf, hot m (by omega)]
    rw [e1]
    exact grow_label i.shape g1 (n.old m hm)
  refine ⟨h4, b, rfl, ⟨hwf, hshape⟩, hgrow, eb, ⟨?_, ?_, ?_, by omega⟩, ?_, ?_, kids4, hlab, ?_, hnx⟩
  · have e1 : h4.label b = h1.label b := by
      refine label_skin hdict ?_
      rw [hob]
    rw [e1, hlab c hcl hcf, un.lab]
    exact grow_label i.shape g1 (n.old c hcl)
  · rw [kids4]; unfold Heap.kids; rw [hbn]; rfl
  · intro f hf
    rw [cont4, if_neg (Ne.symm htb)] at hf
    unfold Heap.cont at hf
    rw [hbn] at hf; cases hf
  · rw [cont4, if_neg (Ne.symm htb)]; unfold Heap.cont; rw [hbn]
  · rw [cont4, if_pos rfl]
  · intro m hm; rw [cont4, if_neg hm]

theorem cloneContent_none {h : Heap} {src tgt : Nat} (hsrc : h.cont src = none) : h.cloneContent src tgt = (h, []) := by
  unfold Heap.cloneContent
  have e1 : (h.obj src).content = none := hsrc
  rw [e1]

end JH
