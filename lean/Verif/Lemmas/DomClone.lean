import Verif.Lemmas.DomNew
import Verif.Spec.Dom
/-! Deep clones. -/
namespace JH

open Spec (Label)

abbrev DTree := Spec.Tree
abbrev Heap.label (h : Heap) (n : Nat) : Label := Spec.labelOf h n

mutual
/-- The part of the heap below `a`, all of it in `F`, is the tree `t`. -/
inductive ReadsIn (h : Heap) (F : Nat → Prop) : Nat → DTree → Prop
  | mk {a : Nat} {cs ct : List DTree} : F a → ReadsInL h F (h.kids a) cs → ReadsInL h F (h.cont a).toList ct → ReadsIn h F a (.mk (h.label a) cs ct)
inductive ReadsInL (h : Heap) (F : Nat → Prop) : List Nat → List DTree → Prop
  | nil : ReadsInL h F [] []
  | cons {a : Nat} {l : List Nat} {t : DTree} {ts : List DTree} : ReadsIn h F a t → ReadsInL h F l ts → ReadsInL h F (a :: l) (t :: ts)
end

mutual
theorem reads_mono {h h' : Heap} {F F' : Nat → Prop} (hF : ∀ n, F n → F' n) (hl : ∀ n, F n → h'.label n = h.label n) (hk : ∀ n, F n → h'.kids n = h.kids n)
    (hc : ∀ n, F n → h'.cont n = h.cont n) : ∀ (t : DTree) (a : Nat), ReadsIn h F a t → ReadsIn h' F' a t
  | .mk l cs ct, a, hr => by
    cases hr with
    | mk h1 h2 h3 =>
      rw [← hl a h1]
      refine .mk (hF a h1) ?_ ?_
      · rw [hk a h1]; exact readsL_mono hF hl hk hc cs _ h2
      · rw [hc a h1]; exact readsL_mono hF hl hk hc ct _ h3
theorem readsL_mono {h h' : Heap} {F F' : Nat → Prop} (hF : ∀ n, F n → F' n) (hl : ∀ n, F n → h'.label n = h.label n) (hk : ∀ n, F n → h'.kids n = h.kids n)
    (hc : ∀ n, F n → h'.cont n = h.cont n) : ∀ (ts : List DTree) (l : List Nat), ReadsInL h F l ts → ReadsInL h' F' l ts
  | [], l, hr => by cases hr; exact .nil
  | t :: ts, l, hr => by
    cases hr with
    | cons h1 h2 => exact .cons (reads_mono hF hl hk hc t _ h1) (readsL_mono hF hl hk hc ts _ h2)
end

/-- The invariant of the heap. -/
structure Inv (h : Heap) : Prop where
  wf : WF h
  shape : Shape h

/-- The contents of every template point back to it. -/
def Host (h : Heap) : Prop := ∀ t f, h.cont t = some f → h.par f = some t

/-- The heap has grown, and only the cells in `M` of the old part have changed. -/
structure Grow (h h' : Heap) (M : Nat → Prop) : Prop where
  le : h.next ≤ h'.next
  dle : h.nextDict ≤ h'.nextDict
  old : ∀ n, n < h.next → ¬ M n → h'.obj n = h.obj n
  dict : ∀ d, d < h.nextDict → h'.dict d = h.dict d
  cont : ∀ t f, f < h.next → h'.cont t = some f → h.cont t = some f
  att : ∀ n d, d < h.nextDict → (h'.obj n).attrs = some d → (h.obj n).attrs = some d
  host : Host h → Host h'
  par : ∀ n p, n < h.next → h'.par n = some p → h.par n = some p

theorem grow_refl (h : Heap) (M : Nat → Prop) : Grow h h M :=
  ⟨Nat.le_refl _, Nat.le_refl _, fun _ _ _ => rfl, fun _ _ => rfl, fun _ _ _ h => h, fun _ _ _ h => h, fun h => h, fun _ _ _ h => h⟩

theorem grow_trans {h h1 h2 : Heap} {M1 M2 M : Nat → Prop} (g1 : Grow h h1 M1) (g2 : Grow h1 h2 M2) (hm1 : ∀ n, n < h.next → M1 n → M n)
    (hm2 : ∀ n, n < h.next → M2 n → M n) : Grow h h2 M := by
  refine ⟨Nat.le_trans g1.le g2.le, Nat.le_trans g1.dle g2.dle, ?_, ?_, ?_, fun n d hd ha => g1.att n d hd (g2.att n d (Nat.lt_of_lt_of_le hd g1.dle) ha), fun hh => g2.host (g1.host hh),
    fun n p hn hp => g1.par n p hn (g2.par n p (Nat.lt_of_lt_of_le hn g1.le) hp)⟩
  · intro n hn hM
    rw [g2.old n (Nat.lt_of_lt_of_le hn g1.le) (fun h => hM (hm2 n hn h)), g1.old n hn (fun h => hM (hm1 n hn h))]
  · intro d hd
    rw [g2.dict d (Nat.lt_of_lt_of_le hd g1.dle), g1.dict d hd]
  · intro t f hf hc
    exact g1.cont t f hf (g2.cont t f (Nat.lt_of_lt_of_le hf g1.le) hc)

theorem grow_label {h h' : Heap} {M : Nat → Prop} (s : Shape h) (g : Grow h h' M) {n : Nat} (ho : h'.obj n = h.obj n) : h'.label n = h.label n := by
  unfold Heap.label Spec.labelOf
  rw [ho]
  have : ((h.obj n).attrs.map h'.dict) = ((h.obj n).attrs.map h.dict) := by
    rcases hd : (h.obj n).attrs with _ | d
    · rfl
    · simp only [Option.map_some]; rw [g.dict d (s.dlt n d hd)]
  rw [this]

theorem label_skin {h h' : Heap} {n : Nat} (hd : h'.dict = h.dict)
    (hs : { h'.obj n with parent := none, children := none, content := none } = { h.obj n with parent := none, children := none, content := none }) :
    h'.label n = h.label n := by
  injection hs with h1 h2 h3 h4 h5 h6 h7 h8 h9 h10
  unfold Heap.label Spec.labelOf
  rw [h1, h2, h3, h4, h5, h9, h10, hd]

/-- `b` is a shallow clone of `c` that has not been filled yet. -/
structure Unfilled (h : Heap) (c b : Nat) : Prop where
  lab : h.label b = h.label c
  kids : h.kids b = []
  cont : ∀ f, h.cont b = some f → h.kids f = [] ∧ h.cont f = none ∧ h.par f = some b ∧ (∀ t, h.cont t = some f → t = b)
  lt : b < h.next

theorem WF.cont_lt {h : Heap} (w : WF h) {t f : Nat} (hc : h.cont t = some f) : t < h.next ∧ f < h.next := by
  have h1 := w.tpl t f hc
  constructor
  · rcases Nat.lt_or_ge t h.next with h2 | h2
    · exact h2
    · have := h1.1; unfold Heap.knd at this; rw [w.fresh t h2] at this; cases this
  · rcases Nat.lt_or_ge f h.next with h2 | h2
    · exact h2
    · have := h1.2; unfold Heap.knd at this; rw [w.fresh f h2] at this; cases this

theorem WF.kid_lt {h : Heap} (w : WF h) {p c : Nat} (hc : c ∈ h.kids p) : p < h.next ∧ c < h.next := by
  have := w.lt_of_par (w.back p c hc)
  exact ⟨this.2, this.1⟩

/-- An unfilled clone stays one while other cells change. -/
theorem unfilled_grow {h h' : Heap} {M : Nat → Prop} {c b : Nat} (i : Inv h) (g : Grow h h' M) (u : Unfilled h c b) (hb : ¬ M b)
    (hf : ∀ f, h.cont b = some f → ¬ M f) (hc : h'.label c = h.label c) : Unfilled h' c b := by
  have hob := g.old b u.lt hb
  refine ⟨?_, ?_, ?_, Nat.lt_of_lt_of_le u.lt g.le⟩
  · rw [grow_label i.shape g hob, hc]; exact u.lab
  · unfold Heap.kids; rw [hob]; exact u.kids
  · intro f hfc
    unfold Heap.cont at hfc
    rw [hob] at hfc
    have hfl := (i.wf.cont_lt (t := b) hfc).2
    have hof := g.old f hfl (hf f hfc)
    obtain ⟨h1, h2, h3, h4⟩ := u.cont f hfc
    refine ⟨?_, ?_, ?_, ?_⟩
    · unfold Heap.kids; rw [hof]; exact h1
    · unfold Heap.cont; rw [hof]; exact h2
    · unfold Heap.par; rw [hof]; exact h3
    · intro t ht; exact h4 t (g.cont t f hfl ht)

theorem new_grow {h h' : Heap} {b : Nat} {k : Kind} {name : Str} {ns data : Option Str} {attrs : Dict} {e s : Bool} (w : WF h)
    (c : NewNode h h' b k name ns data attrs e s) (M : Nat → Prop) : Grow h h' M := by
  refine ⟨c.le, ?_, fun n hn _ => c.old n hn, c.dold, ?_, ?_, ?_, fun n p hn hp => by unfold Heap.par at hp; rw [c.old n hn] at hp; exact hp⟩
  · by_cases ht : k = .template ∧ ns = some c%"html"
    · have := (c.frag ht).2.2.1; omega
    · have := (c.nofrag ht).2; omega
  · intro t f hf htf
    rcases Nat.lt_or_ge t h.next with h1 | h1
    · unfold Heap.cont at htf; rw [c.old t h1] at htf; exact htf
    · unfold Heap.cont at htf
      rcases new_cases w c t h1 with rfl | ⟨rfl, ht⟩ | h2
      · rw [c.cont] at htf
        split at htf
        · injection htf with htf; omega
        · cases htf
      · rw [(c.frag ht).2.1] at htf; cases htf
      · rw [h2] at htf; cases htf
  · intro n d hd ha
    rcases Nat.lt_or_ge n h.next with h1 | h1
    · rw [c.old n h1] at ha; exact ha
    · rcases new_cases w c n h1 with rfl | ⟨rfl, ht⟩ | h2
      · rw [c.att] at ha
        split at ha
        · injection ha with ha; omega
        · cases ha
      · rw [(c.frag ht).2.1] at ha
        injection ha with ha
        omega
      · rw [h2] at ha; cases ha
  · intro hh t f htf
    rcases Nat.lt_or_ge t h.next with h1 | h1
    · unfold Heap.cont at htf; rw [c.old t h1] at htf
      have h2 := hh t f htf
      have h3 := (w.lt_of_par h2).1
      unfold Heap.par; rw [c.old f h3]; exact h2
    · unfold Heap.cont at htf
      rcases new_cases w c t h1 with rfl | ⟨rfl, ht⟩ | h2
      · rw [c.cont] at htf
        split at htf
        · rename_i ht
          injection htf with htf
          subst htf
          unfold Heap.par; rw [(c.frag ht).2.1, c.eq]
        · cases htf
      · rw [(c.frag ht).2.1] at htf; cases htf
      · rw [h2] at htf; cases htf

/-- A shallow clone is unfilled. -/
theorem shallow_unfilled {h : Heap} (i : Inv h) {c : Nat} (hc : c < h.next) : Unfilled (h.shallow c none).1 c (h.shallow c none).2 := by
  have n := shallow_new h c none
  generalize h.shallow c none = r at n
  obtain ⟨h', b⟩ := r
  dsimp only at n ⊢
  have eb := n.eq
  have g := new_grow i.wf n (fun _ => False)
  refine ⟨?_, ?_, ?_, n.lt⟩
  · rw [grow_label i.shape g (n.old c hc)]
    unfold Heap.label Spec.labelOf
    rw [n.kind, n.nm, n.nsp, n.dat, n.flags.1, n.flags.2]
    have : (if (h.obj c).kind = .element ∨ (h.obj c).kind = .template then ((h'.obj b).attrs.map h'.dict).getD [] else []) =
        (if (h.obj c).kind = .element ∨ (h.obj c).kind = .template then ((h.obj c).attrs.map h.dict).getD [] else []) := by
      by_cases hk : (h.obj c).kind = .element ∨ (h.obj c).kind = .template
      · rw [if_pos hk, if_pos hk]
        have hcon : (h.obj c).kind.container = true := by rcases hk with e | e <;> rw [e] <;> rfl
        rw [n.att, if_pos hcon, Option.map_some, Option.getD_some, n.dic hcon]
        unfold Heap.cloneAttrs
        rw [if_pos hk]
        cases (h.obj c).attrs <;> rfl
      · rw [if_neg hk, if_neg hk]
    rw [this]
  · unfold Heap.kids; rw [n.kids]; split <;> rfl
  · intro f hf
    have hf' := hf
    unfold Heap.cont at hf
    rw [n.cont] at hf
    split at hf
    · rename_i ht
      injection hf with hf
      subst hf
      have ho := (n.frag ht).2.1
      refine ⟨?_, ?_, ?_, ?_⟩
      · unfold Heap.kids; rw [ho]; rfl
      · unfold Heap.cont; rw [ho]
      · unfold Heap.par; rw [ho, eb]
      · intro t htf
        rcases Nat.lt_or_ge t h.next with h1 | h1
        · unfold Heap.cont at htf
          rw [n.old t h1] at htf
          have := (i.wf.cont_lt (t := t) htf).2
          omega
        · unfold Heap.cont at htf
          rcases new_cases i.wf n t h1 with h2 | ⟨rfl, -⟩ | h2
          · exact h2
          · rw [ho] at htf; cases htf
          · rw [h2] at htf; cases htf
    · cases hf

theorem new_not_above {h h' : Heap} {b s : Nat} {k : Kind} {name : Str} {ns data : Option Str} {attrs : Dict} {e f : Bool} (w : WF h)
    (c : NewNode h h' b k name ns data attrs e f) (hs : s < h.next) : ¬ Chain h' s b := by
  intro hc
  have : ∀ s t, Chain h' s t → s < h.next → t < h.next := by
    intro s t hst
    induction hst with
    | refl _ => exact id
    | @up s p n h1 _ ih =>
      intro hs
      apply ih
      unfold Heap.par at h1
      rw [c.old s hs] at h1
      exact (w.lt_of_par h1).2
  have := this s b hc hs
  have := c.eq
  omega

/-- One round of the loop over the children. -/
theorem cloneChild_ok {h : Heap} (i : Inv h) {target c : Nat} (ht : target < h.next) (hc : c < h.next) (hct : c ≠ target) (hf : h.knd c ≠ .fragment)
    (htc : (h.knd target).container = true) :
    ∃ h' b, (((h.shallow c none).1.setKids target ((h.shallow c none).1.kids target ++ [(h.shallow c none).2])).setParent (h.shallow c none).2 (some target)) = h' ∧
      (h.shallow c none).2 = b ∧ Inv h' ∧ Grow h h' (· = target) ∧ Unfilled h' c b ∧ b = h.next ∧ h'.kids target = h.kids target ++ [b] ∧
      h'.label target = h.label target ∧ h'.cont target = h.cont target ∧ (∀ f, h'.cont b = some f → f = h.next + 1 ∧ f < h'.next) := by
  have n := shallow_new h c none
  have u := shallow_unfilled i hc
  generalize h.shallow c none = r at n u
  obtain ⟨h1, b⟩ := r
  dsimp only at n u ⊢
  have eb := n.eq
  have w1 := new_wf i.wf n
  have s1 := new_shape i.wf i.shape n
  have g1 := new_grow i.wf n (fun _ => False)
  have htn : target ≠ b := by omega
  have h1t : h1.obj target = h.obj target := n.old target ht
  have hsome : (h1.obj target).children.isSome = true := by
    rw [h1t, i.shape.cls]; exact htc
  have hskin : ∀ m, { ((h1.setKids target (h1.kids target ++ [b])).setParent b (some target)).obj m with parent := none, children := none } =
      { h1.obj m with parent := none, children := none } := by
    intro m
    unfold Heap.setParent Heap.setKids
    rw [obj_mod, obj_mod]
    split <;> split <;> rfl
  have hlab : ∀ m, ((h1.setKids target (h1.kids target ++ [b])).setParent b (some target)).label m = h1.label m := by
    intro m
    refine label_skin (h := h1) (h' := (h1.setKids target (h1.kids target ++ [b])).setParent b (some target)) rfl ?_
    unfold Heap.setParent Heap.setKids
    rw [obj_mod, obj_mod]
    split <;> split <;> rfl
  have hw : WF ((h1.setKids target (h1.kids target ++ [b])).setParent b (some target)) := by
    apply link_wf (a := h1.kids target) (b := []) w1 (by simp) n.par (new_not_above i.wf n ht)
    · show (h1.obj b).kind ≠ _; rw [n.kind]; exact hf
    · show (h1.obj target).kind ≠ _
      rw [h1t]
      intro e
      have : (h.knd target).container = true := htc
      unfold Heap.knd at this
      rw [e] at this; cases this
    · exact Nat.lt_of_lt_of_le ht n.le
    · exact n.lt
  have hs : Shape ((h1.setKids target (h1.kids target ++ [b])).setParent b (some target)) := by
    apply s1.of_skin hskin _ rfl
    intro m
    unfold Heap.setParent Heap.setKids
    rw [obj_mod, obj_mod]
    by_cases e : m = target
    · subst e
      rw [if_pos rfl]; split <;> simp [hsome]
    · rw [if_neg e]; split <;> rfl
  refine ⟨_, _, rfl, rfl, ⟨hw, hs⟩, ?_, ?_, eb, ?_, ?_, ?_, ?_⟩
  · refine ⟨n.le, g1.dle, ?_, g1.dict, ?_, fun m d hd ha => g1.att m d hd ((skin_knd (hskin m)).2.2.1 ▸ ha), ?_, ?_⟩
    · intro m hm hM
      unfold Heap.setParent Heap.setKids
      rw [obj_mod, if_neg (by omega), obj_mod, if_neg hM]
      exact n.old m hm
    · intro t f hfl htf
      rw [cont_setParent, cont_setKids] at htf
      exact g1.cont t f hfl htf
    · intro hh t f htf
      rw [cont_setParent, cont_setKids] at htf
      rw [par_setParent, par_setKids, if_neg]
      · exact g1.host hh t f htf
      · rintro rfl
        have h6 := (w1.tpl _ _ htf).2
        unfold Heap.knd at h6
        rw [n.kind] at h6
        exact hf h6
    · intro m p hm hp
      rw [par_setParent, par_setKids, if_neg (by omega)] at hp
      exact g1.par m p hm hp
  · refine ⟨?_, ?_, ?_, n.lt⟩
    · rw [hlab, hlab]; exact u.lab
    · rw [kids_setParent, kids_setKids, if_neg (Ne.symm htn)]; exact u.kids
    · intro f hfc
      rw [cont_setParent, cont_setKids] at hfc
      obtain ⟨h2, h3, h4, h5⟩ := u.cont f hfc
      have hfb : f ≠ b := by
        rintro rfl
        have h6 := (w1.tpl _ _ hfc)
        rw [h6.1] at h6; cases h6.2
      have hft : f ≠ target := by
        rintro rfl
        have h6 := g1.cont b f ht hfc
        have := (i.wf.cont_lt h6).1
        omega
      refine ⟨?_, ?_, ?_, ?_⟩
      · rw [kids_setParent, kids_setKids, if_neg hft]; exact h2
      · rw [cont_setParent, cont_setKids]; exact h3
      · rw [par_setParent, par_setKids, if_neg hfb]; exact h4
      · intro t htf; rw [cont_setParent, cont_setKids] at htf; exact h5 t htf
  · rw [kids_setParent, kids_setKids, if_pos rfl]
    unfold Heap.kids; rw [h1t]
  · rw [hlab, grow_label i.shape g1 h1t]
  · rw [cont_setParent, cont_setKids]; unfold Heap.cont; rw [h1t]
  · intro f hfc
    rw [cont_setParent, cont_setKids] at hfc
    have h2 := (w1.cont_lt hfc).2
    unfold Heap.cont at hfc
    rw [n.cont] at hfc
    split at hfc
    · injection hfc with hfc; exact ⟨hfc.symm, h2⟩
    · cases hfc

/-- The cells of an unfilled clone: itself and the contents its constructor made. -/
def cells (h : Heap) (b : Nat) : List Nat := b :: (h.cont b).toList

theorem cloneKids_ok : ∀ (cs : List Nat) {h : Heap} (target : Nat), Inv h → target < h.next → (∀ c ∈ cs, c < h.next ∧ c ≠ target ∧ h.knd c ≠ .fragment) →
    (h.knd target).container = true →
    ∃ bs : List Nat, Inv (h.cloneKids target cs).1 ∧ Grow h (h.cloneKids target cs).1 (· = target) ∧ bs.length = cs.length ∧
      (h.cloneKids target cs).1.kids target = h.kids target ++ bs ∧ (h.cloneKids target cs).1.label target = h.label target ∧
      (h.cloneKids target cs).1.cont target = h.cont target ∧
      (h.cloneKids target cs).2 = (cs.zip bs).filter (fun p => h.knd p.1 ≠ .text) ∧
      (∀ p ∈ cs.zip bs, Unfilled (h.cloneKids target cs).1 p.1 p.2) ∧
      (bs.flatMap (cells (h.cloneKids target cs).1)).Nodup ∧ (∀ x ∈ bs.flatMap (cells (h.cloneKids target cs).1), h.next ≤ x) := by
  intro cs
  induction cs with
  | nil =>
    intro h target i _ _ _
    exact ⟨[], i, grow_refl _ _, rfl, by simp [Heap.cloneKids], rfl, rfl, rfl, by simp, by simp, by simp⟩
  | cons c cs ih =>
    intro h target i ht hcs htc
    obtain ⟨h1, b, e1, e2, i1, g1, u1, eb, k1, l1, c1, f1⟩ := cloneChild_ok i ht (hcs c List.mem_cons_self).1 (hcs c List.mem_cons_self).2.1
      (hcs c List.mem_cons_self).2.2 htc
    have hlabs : ∀ m, m < h.next → h1.label m = h.label m := by
      intro m hm
      by_cases e : m = target
      · rw [e]; exact l1
      · exact grow_label i.shape g1 (g1.old m hm e)
    have hknd : ∀ m, m < h.next → h1.knd m = h.knd m := fun m hm => congrArg Spec.Label.kind (hlabs m hm)
    obtain ⟨bs, i2, g2, hl, k2, l2, c2, p2, u2, nd2, ge2⟩ := ih target i1 (Nat.lt_of_lt_of_le ht g1.le)
      (by
        intro x hx
        obtain ⟨h2, h3, h4⟩ := hcs x (List.mem_cons_of_mem _ hx)
        exact ⟨Nat.lt_of_lt_of_le h2 g1.le, h3, by rw [hknd x h2]; exact h4⟩)
      (by rw [hknd target ht]; exact htc)
    have hE : h.cloneKids target (c :: cs) = ((h1.cloneKids target cs).1, if (h.obj c).kind = .text then (h1.cloneKids target cs).2 else (c, b) :: (h1.cloneKids target cs).2) := by
      rw [Heap.cloneKids, e1, e2]
    rw [hE]
    dsimp only
    have hbt : b ≠ target := by omega
    have hcb : (h1.cloneKids target cs).1.cont b = h1.cont b := by
      unfold Heap.cont; rw [g2.old b u1.lt hbt]
    have hft : ∀ f, h1.cont b = some f → f ≠ target := by
      intro f hf; have := (f1 f hf).1; omega
    refine ⟨b :: bs, i2, grow_trans g1 g2 (fun _ _ h => h) (fun _ _ h => h), by simp [hl], ?_, by rw [l2, l1], by rw [c2, c1], ?_, ?_, ?_, ?_⟩
    · rw [k2, k1]; simp
    · rw [p2, List.zip_cons_cons, List.filter_cons]
      have hz : (cs.zip bs).filter (fun p => decide (h1.knd p.1 ≠ .text)) = (cs.zip bs).filter (fun p => decide (h.knd p.1 ≠ .text)) := by
        apply List.filter_congr
        intro p hp
        have hm : p.1 ∈ cs := (List.of_mem_zip hp).1
        rw [hknd p.1 (hcs p.1 (List.mem_cons_of_mem _ hm)).1]
      rw [hz]
      by_cases hk : (h.obj c).kind = .text
      · rw [if_pos hk, if_neg]
        have : h.knd c = .text := hk
        simp [this]
      · rw [if_neg hk, if_pos]
        have : h.knd c ≠ .text := hk
        simpa using this
    · intro p hp
      rw [List.zip_cons_cons] at hp
      rcases List.mem_cons.1 hp with rfl | hp
      · refine unfilled_grow i1 g2 u1 hbt hft ?_
        have hcl := (hcs c List.mem_cons_self)
        exact grow_label i1.shape g2 (g2.old c (Nat.lt_of_lt_of_le hcl.1 g1.le) hcl.2.1)
      · exact u2 p hp
    · rw [List.flatMap_cons, List.nodup_append]
      refine ⟨?_, nd2, ?_⟩
      · unfold cells
        rw [hcb, List.nodup_cons]
        refine ⟨?_, ?_⟩
        · intro hm
          rw [Option.mem_toList] at hm
          have := (f1 b hm).1; omega
        · cases h1.cont b <;> simp
      · intro x hx y hy
        have h5 := ge2 y hy
        have h6 : x < h1.next := by
          unfold cells at hx
          rw [hcb] at hx
          rcases List.mem_cons.1 hx with rfl | hx
          · exact u1.lt
          · rw [Option.mem_toList] at hx; exact (f1 x hx).2
        omega
    · intro x hx
      rw [List.flatMap_cons] at hx
      rcases List.mem_append.1 hx with hx | hx
      · unfold cells at hx
        rw [hcb] at hx
        rcases List.mem_cons.1 hx with rfl | hx
        · omega
        · rw [Option.mem_toList] at hx; have := (f1 x hx).1; omega
      · exact Nat.le_trans g1.le (ge2 x hx)

end JH
