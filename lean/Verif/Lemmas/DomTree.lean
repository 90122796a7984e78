import Verif.Lemmas.DomLoop
/-! Deep clones: the copy reads the same. -/
namespace JH

theorem readsL_length {h : Heap} {F : Nat → Prop} {l : List Nat} {ts : List DTree} (hr : ReadsInL h F l ts) : ts.length = l.length := by
  induction ts generalizing l with
  | nil => cases hr; rfl
  | cons t ts ih => cases hr with | cons _ h2 => simp [ih h2]

theorem readsL_append {h : Heap} {F : Nat → Prop} {l m : List Nat} {ts us : List DTree} (h1 : ReadsInL h F l ts) (h2 : ReadsInL h F m us) :
    ReadsInL h F (l ++ m) (ts ++ us) := by
  induction ts generalizing l with
  | nil => cases h1; exact h2
  | cons t ts ih => cases h1 with | cons h3 h4 => exact .cons h3 (ih h4)

theorem readsL_split {h : Heap} {F : Nat → Prop} {l m : List Nat} {ts us : List DTree} (hl : l.length = ts.length) (hr : ReadsInL h F (l ++ m) (ts ++ us)) :
    ReadsInL h F l ts ∧ ReadsInL h F m us := by
  induction ts generalizing l with
  | nil =>
    cases l with
    | nil => exact ⟨.nil, hr⟩
    | cons a l => simp at hl
  | cons t ts ih =>
    cases l with
    | nil => simp at hl
    | cons a l =>
      cases hr with
      | cons h3 h4 =>
        obtain ⟨h5, h6⟩ := ih (by simpa using hl) h4
        exact ⟨.cons h3 h5, h6⟩

/-- The loop copies the tree below `src` under `tgt`. -/
def Copies (t : DTree) : Prop :=
  ∀ (h : Heap) (F : Nat → Prop) (src tgt : Nat), Inv h → Unfilled h src tgt → ReadsIn h F src t → (∀ n, F n → n < h.next ∧ n ∉ cells h tgt) →
    ∃ k h', (∀ f rest, Heap.cloneLoop (k + f) h ((src, tgt) :: rest) = Heap.cloneLoop f h' rest) ∧ Inv h' ∧ Grow h h' (· ∈ cells h tgt) ∧
      ReadsIn h' (fun n => n = tgt ∨ (h.next ≤ n ∧ n < h'.next)) tgt t

theorem zip_mem_of_mem {α β : Type} : ∀ {ss : List α} {bs : List β}, bs.length = ss.length → ∀ b ∈ bs, ∃ s, (s, b) ∈ ss.zip bs := by
  intro ss
  induction ss with
  | nil => intro bs hl b hb; cases bs <;> simp_all
  | cons s ss ih =>
    intro bs hl b hb
    cases bs with
    | nil => cases hb
    | cons b' bs =>
      rcases List.mem_cons.1 hb with rfl | hb
      · exact ⟨s, by simp⟩
      · obtain ⟨s', hs'⟩ := ih (by simpa using hl) b hb
        exact ⟨s', by rw [List.zip_cons_cons]; exact List.mem_cons_of_mem _ hs'⟩

theorem workPairs_eq {h h' : Heap} {ss bs : List Nat} (he : ∀ s ∈ ss, h'.knd s = h.knd s) : workPairs h' ss bs = workPairs h ss bs := by
  unfold workPairs
  apply List.filter_congr
  intro p hp
  rw [he p.1 (List.of_mem_zip hp).1]

theorem readsL_F {h : Heap} {F : Nat → Prop} {ss : List Nat} {ts : List DTree} (hr : ReadsInL h F ss ts) : ∀ s ∈ ss, F s := by
  induction ts generalizing ss with
  | nil => cases hr; intro s hs; cases hs
  | cons t ts ih =>
    cases hr with
    | cons h1 h2 =>
      intro s hs
      rcases List.mem_cons.1 hs with rfl | hs
      · cases h1; assumption
      · exact ih h2 s hs

theorem copies_list : ∀ (ts : List DTree), (∀ t ∈ ts, Copies t) → ∀ (h : Heap) (F : Nat → Prop) (ss bs : List Nat), Inv h → bs.length = ss.length →
    (∀ p ∈ ss.zip bs, Unfilled h p.1 p.2) → ReadsInL h F ss ts → (∀ n, F n → n < h.next ∧ n ∉ bs.flatMap (cells h)) → (bs.flatMap (cells h)).Nodup →
    ∃ k h', (∀ f rest, Heap.cloneLoop (k + f) h (workPairs h ss bs ++ rest) = Heap.cloneLoop f h' rest) ∧ Inv h' ∧ Grow h h' (· ∈ bs.flatMap (cells h)) ∧
      ReadsInL h' (fun n => n ∈ bs ∨ (h.next ≤ n ∧ n < h'.next)) bs ts := by
  intro ts
  induction ts with
  | nil =>
    intro _ h F ss bs i hl _ hr _ _
    cases hr
    cases bs with
    | nil => exact ⟨0, h, by intro f rest; rw [Nat.zero_add]; rfl, i, grow_refl _ _, .nil⟩
    | cons b bs => simp at hl
  | cons t ts ih =>
    intro hts h F ss bs i hl hu hr hF hnd
    cases hr with
    | cons hr1 hr2 =>
    rename_i s ss
    cases bs with
    | nil => simp at hl
    | cons b bs =>
      have u : Unfilled h s b := hu (s, b) (by simp)
      rw [List.flatMap_cons, List.nodup_append] at hnd
      have hFs : F s := by cases hr1; assumption
      have hFb : ∀ n, F n → n < h.next ∧ n ∉ cells h b := by
        intro n hn
        refine ⟨(hF n hn).1, fun hm => (hF n hn).2 ?_⟩
        rw [List.flatMap_cons]; exact List.mem_append_left _ hm
      have hFbs : ∀ n, F n → n ∉ bs.flatMap (cells h) := by
        intro n hn hm
        apply (hF n hn).2
        rw [List.flatMap_cons]; exact List.mem_append_right _ hm
      have hbl : ∀ b' ∈ bs, b' < h.next ∧ ∀ x ∈ cells h b', x < h.next := by
        intro b' hb'
        obtain ⟨s', hs'⟩ := zip_mem_of_mem hl b' (List.mem_cons_of_mem _ hb')
        have u' := hu _ hs'
        refine ⟨u'.lt, ?_⟩
        intro x hx
        rcases List.mem_cons.1 hx with rfl | hx
        · exact u'.lt
        · rw [Option.mem_toList] at hx; exact (i.wf.cont_lt hx).2
      -- the first one
      obtain ⟨k1, h1, e1, i1, g1, r1⟩ : ∃ k h', (∀ f rest, Heap.cloneLoop (k + f) h (workPairs h [s] [b] ++ rest) = Heap.cloneLoop f h' rest) ∧ Inv h' ∧
          Grow h h' (· ∈ cells h b) ∧ ReadsIn h' (fun n => n = b ∨ (h.next ≤ n ∧ n < h'.next)) b t := by
        by_cases ht : h.knd s = .text
        · refine ⟨0, h, ?_, i, grow_refl _ _, ?_⟩
          · intro f rest
            rw [Nat.zero_add]
            unfold workPairs
            simp [ht]
          · cases hr1 with
            | mk _ hr3 hr4 =>
              rw [i.wf.leaf s ht] at hr3
              cases hr3
              have hc : h.cont s = none := by
                rcases hc : h.cont s with _ | c
                · rfl
                · have := (i.wf.tpl s c hc).1; rw [ht] at this; cases this
              rw [hc] at hr4
              cases hr4
              have hcb : h.cont b = none := by
                have := unfilled_cont i u
                rw [hc] at this
                rcases h2 : h.cont b with _ | f
                · rfl
                · rw [h2] at this; cases this
              rw [← u.lab]
              refine .mk (.inl rfl) ?_ ?_
              · rw [u.kids]; exact .nil
              · rw [hcb]; exact .nil
        · obtain ⟨k, h', e, r⟩ := hts t List.mem_cons_self h F s b i u hr1 hFb
          refine ⟨k, h', ?_, r⟩
          intro f rest
          rw [← e f rest]
          unfold workPairs
          simp [ht]
      -- the others
      have hobF : ∀ n, F n → h1.obj n = h.obj n := fun n hn => g1.old n (hFb n hn).1 (hFb n hn).2
      have hlabF : ∀ n, F n → h1.label n = h.label n := fun n hn => grow_label i.shape g1 (hobF n hn)
      have hr2' : ReadsInL h1 F ss ts := by
        apply readsL_mono (fun _ h => h) hlabF _ _ ts ss hr2
        · intro n hn; unfold Heap.kids; rw [hobF n hn]
        · intro n hn; unfold Heap.cont; rw [hobF n hn]
      have hdis : ∀ b' ∈ bs, ∀ x ∈ cells h b', x ∉ cells h b := by
        intro b' hb' x hx hx2
        exact hnd.2.2 x hx2 x (List.mem_flatMap.2 ⟨b', hb', hx⟩) rfl
      have hcell : ∀ b' ∈ bs, cells h1 b' = cells h b' := by
        intro b' hb'
        unfold cells Heap.cont
        rw [g1.old b' (hbl b' hb').1 (hdis b' hb' b' List.mem_cons_self)]
      have hcc : bs.flatMap (cells h1) = bs.flatMap (cells h) := flatMap_congr_mem hcell
      have hssF : ∀ s' ∈ ss, F s' := readsL_F hr2
      obtain ⟨k2, h2, e2, i2, g2, r2⟩ := ih (fun t ht => hts t (List.mem_cons_of_mem _ ht)) h1 F ss bs i1 (by simpa using hl)
        (by
          intro p hp
          have up := hu p (by rw [List.zip_cons_cons]; exact List.mem_cons_of_mem _ hp)
          have hm := List.of_mem_zip hp
          refine unfilled_grow i g1 up (hdis p.2 hm.2 p.2 List.mem_cons_self) ?_ (hlabF p.1 (hssF p.1 hm.1))
          intro f hf
          exact hdis p.2 hm.2 f (by unfold cells; rw [hf]; simp))
        hr2'
        (by intro n hn; rw [hcc]; exact ⟨Nat.lt_of_lt_of_le (hFb n hn).1 g1.le, hFbs n hn⟩)
        (by rw [hcc]; exact hnd.2.1)
      have hwe : workPairs h1 ss bs = workPairs h ss bs := workPairs_eq fun s' hs' => congrArg Spec.Label.kind (hlabF s' (hssF s' hs'))
      refine ⟨k1 + k2, h2, ?_, i2, ?_, ?_⟩
      · intro f rest
        have : workPairs h (s :: ss) (b :: bs) = workPairs h [s] [b] ++ workPairs h ss bs := by
          unfold workPairs
          rw [List.zip_cons_cons, List.filter_cons]
          simp only [List.zip_cons_cons, List.zip_nil_right, List.filter_cons, List.filter_nil]
          split <;> rfl
        rw [this, List.append_assoc, Nat.add_assoc, e1, ← hwe]
        exact e2 f rest
      · refine grow_trans g1 g2 ?_ ?_
        · intro n _ hn; rw [List.flatMap_cons]; exact List.mem_append_left _ hn
        · intro n _ hn; rw [hcc] at hn; rw [List.flatMap_cons]; exact List.mem_append_right _ hn
      · have hun : ∀ n, (n = b ∨ (h.next ≤ n ∧ n < h1.next)) → h2.obj n = h1.obj n := by
          intro n hn
          apply g2.old
          · rcases hn with rfl | hn
            · exact Nat.lt_of_lt_of_le u.lt g1.le
            · exact hn.2
          · intro hm
            rw [hcc] at hm
            rcases hn with rfl | hn
            · exact hnd.2.2 _ List.mem_cons_self _ hm rfl
            · obtain ⟨b', hb', hx⟩ := List.mem_flatMap.1 hm
              have := (hbl b' hb').2 n hx
              omega
        refine .cons ?_ ?_
        · apply reads_mono _ _ _ _ t b r1
          · rintro n (rfl | hn)
            · exact .inl List.mem_cons_self
            · exact .inr ⟨hn.1, Nat.lt_of_lt_of_le hn.2 g2.le⟩
          · intro n hn; exact grow_label i1.shape g2 (hun n hn)
          · intro n hn; unfold Heap.kids; rw [hun n hn]
          · intro n hn; unfold Heap.cont; rw [hun n hn]
        · apply readsL_mono _ (fun _ _ => rfl) (fun _ _ => rfl) (fun _ _ => rfl) ts bs r2
          rintro n (hn | hn)
          · exact .inl (List.mem_cons_of_mem _ hn)
          · exact .inr ⟨Nat.le_trans g1.le hn.1, hn.2⟩

theorem copies_node (l : Spec.Label) (cs ct : List DTree) (hts : ∀ t ∈ cs ++ ct, Copies t) : Copies (.mk l cs ct) := by
  intro h F src tgt i u hr hF
  cases hr with
  | mk hFs hr1 hr2 =>
    have hs := hF src hFs
    have hkF := readsL_F hr1
    obtain ⟨h1, bs, cb, e1, i1, g1, e2, e3, e4, e5, e6, e7, e8, e9⟩ := cloneStep_ok i u hs.1
      (by
        intro c hc e
        apply (hF c (hkF c hc)).2
        rw [e]; exact List.mem_cons_self)
      (by intro e; apply hs.2; rw [e]; exact List.mem_cons_self)
      hs.2
    have hobF : ∀ n, F n → h1.obj n = h.obj n := fun n hn => g1.old n (hF n hn).1 (hF n hn).2
    have hlabF : ∀ n, F n → h1.label n = h.label n := fun n hn => grow_label i.shape g1 (hobF n hn)
    have hmono : ∀ ss ts, ReadsInL h F ss ts → ReadsInL h1 F ss ts := by
      intro ss ts
      apply readsL_mono (fun _ h => h) hlabF
      · intro n hn; unfold Heap.kids; rw [hobF n hn]
      · intro n hn; unfold Heap.cont; rw [hobF n hn]
    have hr3 := readsL_append (hmono _ _ hr1) (hmono _ _ hr2)
    obtain ⟨k, h2, f1, i2, g2, r2⟩ := copies_list (cs ++ ct) hts h1 F (h.kids src ++ (h.cont src).toList) (bs ++ cb) i1 (by simp [e2, e3]) e7 hr3
      (by
        intro n hn
        refine ⟨Nat.lt_of_lt_of_le (hF n hn).1 g1.le, ?_⟩
        intro hm
        have := (e9 n hm).1
        have := (hF n hn).1
        omega) e8
    have hwe : ∀ ss bs, (∀ s ∈ ss, F s) → workPairs h1 ss bs = workPairs h ss bs := fun ss bs hss =>
      workPairs_eq fun s' hs' => congrArg Spec.Label.kind (hlabF s' (hss s' hs'))
    have hwp : workPairs h (h.kids src) bs ++ workPairs h (h.cont src).toList cb = workPairs h1 (h.kids src ++ (h.cont src).toList) (bs ++ cb) := by
      rw [hwe]
      · unfold workPairs
        rw [List.zip_append (by rw [e2]), List.filter_append]
      · exact readsL_F hr3
    have htg : h2.obj tgt = h1.obj tgt := by
      apply g2.old _ (Nat.lt_of_lt_of_le u.lt g1.le)
      intro hm
      have := (e9 tgt hm).1
      have := u.lt
      omega
    have hF2 : ∀ n, (n ∈ bs ++ cb ∨ (h1.next ≤ n ∧ n < h2.next)) → (n = tgt ∨ (h.next ≤ n ∧ n < h2.next)) := by
      rintro n (hn | hn)
      · have := e9 n (List.mem_flatMap.2 ⟨n, hn, List.mem_cons_self⟩)
        have := g2.le
        exact .inr ⟨by omega, by omega⟩
      · have := g1.le
        exact .inr ⟨by omega, by omega⟩
    refine ⟨1 + k, h2, ?_, i2, ?_, ?_⟩
    · intro f rest
      rw [show 1 + k + f = (k + f) + 1 from by omega, e1, hwp]
      exact f1 f rest
    · apply grow_trans g1 g2 (fun _ _ h => h)
      intro n hn hm
      have := (e9 n hm).1
      omega
    · have hl : h2.label tgt = h.label src := by
        rw [grow_label i1.shape g2 htg, e6, u.lab]
      rw [← hl]
      obtain ⟨r3, r4⟩ := readsL_split (by rw [e2]; exact (readsL_length hr1).symm) r2
      refine .mk (.inl rfl) ?_ ?_
      · have : h2.kids tgt = bs := by unfold Heap.kids; rw [htg]; exact e4
        rw [this]
        exact readsL_mono hF2 (fun _ _ => rfl) (fun _ _ => rfl) (fun _ _ => rfl) cs bs r3
      · have : (h2.cont tgt).toList = cb := by unfold Heap.cont; rw [htg]; exact e5
        rw [this]
        exact readsL_mono hF2 (fun _ _ => rfl) (fun _ _ => rfl) (fun _ _ => rfl) ct cb r4

theorem copies_all (t : DTree) : Copies t := by
  match t with
  | .mk l cs ct =>
    apply copies_node
    intro t ht
    rcases List.mem_append.1 ht with h1 | h1
    · have := List.sizeOf_lt_of_mem h1
      exact copies_all t
    · have := List.sizeOf_lt_of_mem h1
      exact copies_all t
termination_by sizeOf t
decreasing_by
  all_goals simp_wf; omega

/-- A deep clone of a tree finishes and reads the same. -/
theorem clone_reads {h : Heap} (i : Inv h) {a : Nat} {t : DTree} (ha : a < h.next) (hr : ReadsIn h (· < h.next) a t) (ov : Option Dict) :
    ∃ k h', (∀ f, k ≤ f → h.cloneNode f a true ov = some (h', some h.next)) ∧ ReadsIn h' (fun n => h.next ≤ n ∧ n < h'.next) h.next t ∧
      h'.par h.next = none := by
  have n := shallow_new h a none
  have u := shallow_unfilled i ha
  have hE : ∀ f, h.cloneNode f a true ov = (match Heap.cloneLoop f (h.shallow a none).1 [(a, (h.shallow a none).2)] with | none => none | some h' => some (h', some (h.shallow a none).2)) :=
    fun _ => rfl
  simp only [hE]
  generalize h.shallow a none = r at n u
  obtain ⟨h1, b⟩ := r
  dsimp only at n u ⊢
  have eb := n.eq
  subst eb
  have i1 : Inv h1 := ⟨new_wf i.wf n, new_shape i.wf i.shape n⟩
  have g1 := new_grow i.wf n (fun _ => False)
  have hob : ∀ m, m < h.next → h1.obj m = h.obj m := n.old
  have hr1 : ReadsIn h1 (· < h.next) a t := by
    apply reads_mono (fun _ h => h) _ _ _ t a hr
    · intro m hm; exact grow_label i.shape g1 (hob m hm)
    · intro m hm; unfold Heap.kids; rw [hob m hm]
    · intro m hm; unfold Heap.cont; rw [hob m hm]
  obtain ⟨k, h2, e1, i2, g2, r2⟩ := copies_all t h1 (· < h.next) a h.next i1 u hr1
    (by
      intro m hm
      refine ⟨Nat.lt_of_lt_of_le hm n.le, ?_⟩
      intro hc
      rcases List.mem_cons.1 hc with rfl | hc
      · exact absurd hm (Nat.lt_irrefl _)
      · rw [Option.mem_toList] at hc
        have h3 := g1.cont _ _ hm hc
        have := (i.wf.cont_lt h3).1
        omega)
  refine ⟨k, h2, ?_, ?_, ?_⟩
  · intro f hf
    obtain ⟨d, rfl⟩ : ∃ d, f = k + d := ⟨f - k, by omega⟩
    rw [e1 d []]
    have : Heap.cloneLoop d h2 [] = some h2 := by cases d <;> rfl
    rw [this]
  · apply reads_mono _ (fun _ _ => rfl) (fun _ _ => rfl) (fun _ _ => rfl) t _ r2
    have h3 := n.lt
    have h4 := g2.le
    rintro m (rfl | hm)
    · exact ⟨Nat.le_refl _, by omega⟩
    · have := n.le; exact ⟨by omega, hm.2⟩
  · rcases hp : h2.par h.next with _ | p
    · rfl
    · have h3 := g2.par _ p n.lt hp
      unfold Heap.par at h3
      rw [n.par] at h3; cases h3

end JH
