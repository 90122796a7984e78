import Verif.Lemmas.DomWF
/-! The calls of the DOM API: the invariant is kept, failures change nothing, and the children end up in the right order. -/
namespace JH

/-- The result of putting a node between `a` and `b` among the children of `self`. -/
structure Placed (h h' : Heap) (s node : Nat) (a b : List Nat) : Prop where
  kids : ∀ n, h'.kids n = if n = s then a ++ node :: b else (h.kids n).filter fun y => y ≠ node
  par : ∀ n, h'.par n = if n = node then some s else h.par n
  skin : ∀ n, { h'.obj n with parent := none, children := none } = { h.obj n with parent := none, children := none }
  next : h'.next = h.next
  dict : h'.dict = h.dict ∧ h'.nextDict = h.nextDict
  rest : ∀ n, n ≠ s → n ≠ node → h.par node ≠ some n → h'.obj n = h.obj n
  some : ∀ n, (h'.obj n).children.isSome = (h.obj n).children.isSome

theorem skin_knd {o o' : Obj} (h : { o' with parent := none, children := none } = { o with parent := none, children := none }) :
    o'.kind = o.kind ∧ o'.content = o.content ∧ o'.attrs = o.attrs ∧ o'.name = o.name ∧ o'.ns = o.ns ∧ o'.data = o.data ∧ o'.endTag = o.endTag ∧
      o'.selfClosing = o.selfClosing := by
  injection h with h1 h2 h3 h4 h5 h6 h7 h8 h9 h10
  exact ⟨h1, h8, h5, h2, h3, h4, h9, h10⟩

theorem place_ok {h h1 : Heap} {self node : Nat} {a b : List Nat} (w : WF h) (d : Detached h h1 node) (hk : (h.kids self).filter (fun y => y ≠ node) = a ++ b)
    (hch : ¬ Chain h self node) (hf : h.knd node ≠ .fragment) (ht : h.knd self ≠ .text) (hsm : (h.obj self).children.isSome = true)
    (hs : self < h.next) (hn : node < h.next) :
    WF ((h1.setKids self (a ++ node :: b)).setParent node (some self)) ∧
    Placed h ((h1.setKids self (a ++ node :: b)).setParent node (some self)) self node a b := by
  refine ⟨?_, ?_, ?_, ?_, ?_, ?_, ?_, ?_⟩
  · apply link_wf (detached_wf w d hn) (by rw [d.kids]; exact hk) (by rw [d.par, if_pos rfl]) (fun hc => hch (chain_detached d hc))
      (by rw [d.knd]; exact hf) (by rw [d.knd]; exact ht) (by rw [d.next]; exact hs) (by rw [d.next]; exact hn)
  · intro n
    rw [kids_setParent, kids_setKids]
    split
    · rfl
    · rw [d.kids]
  · intro n
    rw [par_setParent, par_setKids]
    split
    · rfl
    · rename_i e; rw [d.par, if_neg e]
  · intro n
    rw [← d.skin n]
    unfold Heap.setParent Heap.setKids
    rw [obj_mod, obj_mod]
    split <;> split <;> rfl
  · rw [next_setParent, next_setKids, d.next]
  · exact d.dict
  · intro n h2 h3 h4
    unfold Heap.setParent Heap.setKids
    rw [obj_mod, if_neg h3, obj_mod, if_neg h2]
    exact d.rest n h3 h4
  · intro n
    rw [← d.some n]
    have hsm' := hsm
    rw [← d.some self] at hsm'
    unfold Heap.setParent Heap.setKids
    rw [obj_mod, obj_mod]
    by_cases e : n = self
    · subst e
      split <;> simp [hsm']
    · rw [if_neg e]; split <;> rfl

theorem shift_length {h : Heap} {self node r : Nat} {a b : List Nat} {old : Option Nat × Option Nat} (w : WF h) (hl : h.kids self = a ++ r :: b)
    (hold : old = (h.par node, (match h.par node with | none => none | some p => (h.kids p).idxOf? node)) ∨ (old = (none, none) ∧ h.par node = none)) :
    shiftIndex self a.length old = (a.filter fun y => y ≠ node).length := by
  by_cases hm : node ∈ a
  · have hp : h.par node = some self := w.back self node (by rw [hl]; exact List.mem_append_left _ hm)
    rcases hold with rfl | ⟨-, h2⟩
    · rw [hp]
      dsimp only
      rcases hi : (h.kids self).idxOf? node with _ | j
      · exact absurd (by rw [hl]; exact List.mem_append_left _ hm) (idxOf_none.1 hi)
      · obtain ⟨h1, h2, h3⟩ := idxOf_split hi
        have hj : j < a.length := by
          rcases Nat.lt_or_ge j a.length with h4 | h4
          · exact h4
          · exfalso; apply h2
            rw [hl, List.take_append]
            apply List.mem_append_left
            rw [List.take_of_length_le h4]; exact hm
        unfold shiftIndex
        dsimp only
        rw [if_pos ⟨rfl, hj⟩]
        obtain ⟨a1, a2, rfl⟩ := List.append_of_mem hm
        have hn := w.once self
        rw [hl, List.nodup_append] at hn
        rw [filter_ne_split hn.1]
        simp
    · rw [hp] at h2; cases h2
  · rw [filter_ne_of_not_mem hm]
    unfold shiftIndex
    split
    · rename_i j hj
      rw [if_neg]
      rintro ⟨h1, h2⟩
      rcases hold with rfl | ⟨rfl, -⟩
      · dsimp only at h1 hj
        rw [h1] at hj
        dsimp only at hj
        obtain ⟨h3, -, h5⟩ := idxOf_split hj
        apply hm
        have : (h.kids self)[j]? = some node := by
          rw [h3, List.getElem?_append_right (by simp; omega)]
          simp [Nat.min_eq_left (Nat.le_of_lt h5)]
        rw [hl, List.getElem?_append_left h2] at this
        exact List.mem_of_getElem? this
      · cases h1
    · rfl

/-! ### Fragments -/

theorem idxOf_mid {a b : List Nat} {r : Nat} (h : r ∉ a) : (a ++ r :: b).idxOf? r = some a.length := by
  induction a with
  | nil => simp [List.idxOf?_cons]
  | cons x a ih =>
    simp only [List.mem_cons, not_or] at h
    rw [List.cons_append, List.idxOf?_cons, if_neg (by simpa using Ne.symm h.1), ih h.2]
    rfl


/-- The result of moving the children of a fragment between `a` and `b`. -/
structure Spliced (h h' : Heap) (s frag : Nat) (a b : List Nat) : Prop where
  kids : ∀ n, h'.kids n = if n = s then a ++ h.kids frag ++ b else if n = frag then [] else h.kids n
  par : ∀ n, h'.par n = if n ∈ h.kids frag then some s else if n = frag then none else h.par n
  skin : ∀ n, { h'.obj n with parent := none, children := none } = { h.obj n with parent := none, children := none }
  next : h'.next = h.next
  dict : h'.dict = h.dict ∧ h'.nextDict = h.nextDict
  rest : ∀ n, n ≠ s → n ≠ frag → n ∉ h.kids frag → h.par frag ≠ some n → h'.obj n = h.obj n
  some : ∀ n, (h'.obj n).children.isSome = (h.obj n).children.isSome

theorem insertFragment_eq {fuel : Nat} {h : Heap} {self frag : Nat} {ref : Option Nat} (w : WF h) (hf : h.knd frag = .fragment)
    (hs : self < h.next) (hn : frag < h.next) (ht : h.knd self ≠ .text) (hsm : (h.obj self).children.isSome = true)
    (hsf : (h.obj frag).children.isSome = true) (a b : List Nat) (hkab : h.kids self = a ++ b)
    (href : match ref with | none => b = [] | some r => ∃ b', b = r :: b') :
    h.insertFragment fuel self frag ref = none ∨ h.insertFragment fuel self frag ref = some (h, none) ∨
    ∃ h', h.insertFragment fuel self frag ref = some (h', some ()) ∧ WF h' ∧ Spliced h h' self frag a b ∧ self ≠ frag := by
  unfold Heap.insertFragment
  have fnk : ∀ n, frag ∉ h.kids n := fun n hm => w.nofrag n frag hm hf
  rcases ha : h.adopt fuel self frag with _ | ⟨h1, _ | old⟩
  · exact .inl rfl
  · refine .inr (.inl ?_)
    unfold Heap.adopt at ha
    show some (h1, none) = _
    split at ha
    · simp only [Option.some.injEq, Prod.mk.injEq, and_true] at ha; rw [ha]
    · dsimp only at ha
      split at ha
      · cases ha
      · split at ha
        · cases ha
        · simp only [Option.some.injEq, Prod.mk.injEq, and_true] at ha; rw [ha]
        · cases ha
  · refine .inr (.inr ?_)
    obtain ⟨hne, hch, d, -⟩ := adopt_spec w ha
    have w1 := detached_wf w d hn
    have hk1 : ∀ n, h1.kids n = h.kids n := fun n => by rw [d.kids, filter_ne_of_not_mem (fnk n)]
    have hnk : ∀ n, n ∈ h.kids frag → ¬ Chain h1 self n := by
      intro n hm hc
      apply hch
      apply chain_snoc (chain_detached d hc)
      exact w.back frag n hm
    have hin : refIndex (h1.kids self) ref = some a.length := by
      rw [hk1, hkab]
      cases ref with
      | none => have : b = [] := href; simp [refIndex, this]
      | some r =>
        obtain ⟨b', rfl⟩ := href
        have hno : r ∉ a := by
          have := w.once self
          rw [hkab, List.nodup_append] at this
          intro h5; exact this.2.2 r h5 r (by simp) rfl
        exact idxOf_mid hno
    simp only [Res.andThen]
    rw [hin]
    dsimp only
    have hka : ((h1.setKids frag []).setParents (h1.kids frag) self).kids self = a ++ b := by
      rw [kids_setParents, kids_setKids, if_neg (Ne.symm hne), hk1, hkab]
    rw [hka, List.take_left, List.drop_left, hk1]
    have hkids : ∀ n, ((((h1.setKids frag []).setParents (h.kids frag) self).setKids self (a ++ h.kids frag ++ b))).kids n =
        if n = self then a ++ h.kids frag ++ b else if n = frag then [] else h.kids n := by
      intro n
      rw [kids_setKids, kids_setParents, kids_setKids, hk1]
    have hpar : ∀ n, ((((h1.setKids frag []).setParents (h.kids frag) self).setKids self (a ++ h.kids frag ++ b))).par n =
        if n ∈ h.kids frag then some self else if n = frag then none else h.par n := by
      intro n
      rw [par_setKids, par_setParents, par_setKids, d.par]
    have hobj : ∀ n, ((((h1.setKids frag []).setParents (h.kids frag) self).setKids self (a ++ h.kids frag ++ b))).obj n =
        (fun o : Obj => if n = self then { o with children := some (a ++ h.kids frag ++ b) } else o)
          ((fun o : Obj => if n ∈ h.kids frag then { o with parent := some self } else o)
            (if n = frag then { h1.obj n with children := some [] } else h1.obj n)) := by
      intro n
      unfold Heap.setKids
      rw [obj_mod, obj_setParents, obj_mod]
    have hknd : ∀ n, ((((h1.setKids frag []).setParents (h.kids frag) self).setKids self (a ++ h.kids frag ++ b))).knd n = h.knd n := by
      intro n; rw [knd_setKids, knd_setParents, knd_setKids, d.knd]
    have hcont : ∀ n, ((((h1.setKids frag []).setParents (h.kids frag) self).setKids self (a ++ h.kids frag ++ b))).cont n = h.cont n := by
      intro n; rw [cont_setKids, cont_setParents, cont_setKids, d.cont]
    refine ⟨_, rfl, ⟨?_, ?_, ?_, ?_, ?_, ?_, ?_, ?_, ?_⟩, ⟨hkids, hpar, ?_, ?_, by
      have := dict_setParents (h.kids frag) (h1.setKids frag []) self
      exact ⟨this.1.trans d.dict.1, this.2.trans d.dict.2⟩, ?_, ?_⟩, Ne.symm hne⟩
    · intro p c hc
      rw [hkids] at hc
      rw [hpar]
      split at hc
      · rename_i e
        rw [e]
        by_cases hm : c ∈ h.kids frag
        · rw [if_pos hm]
        · rw [if_neg hm]
          have hc' : c ∈ h.kids self := by
            rw [hkab]
            simp only [List.mem_append] at hc ⊢
            rcases hc with (hc | hc) | hc
            · exact .inl hc
            · exact absurd hc hm
            · exact .inr hc
          rw [if_neg (by rintro rfl; exact fnk _ hc')]
          exact w.back self c hc'
      · split at hc
        · cases hc
        · rename_i h3 h4
          have hp := w.back p c hc
          rw [if_neg, if_neg (by rintro rfl; exact fnk _ hc), hp]
          intro hm
          have := w.back frag c hm
          rw [hp] at this; injection this with this; exact h4 this
    · intro p
      rw [hkids]
      split
      · have h1 := w.once self
        rw [hkab, List.nodup_append] at h1
        rw [List.nodup_append, List.nodup_append]
        have dis : ∀ x ∈ h.kids self, ∀ y ∈ h.kids frag, x ≠ y := by
          rintro x hx y hy rfl
          have e1 := w.back self x hx
          have e2 := w.back frag x hy
          rw [e1] at e2; injection e2 with e2; exact hne e2.symm
        refine ⟨⟨h1.1, w.once frag, fun x hx y hy => dis x (by rw [hkab]; simp [hx]) y hy⟩, h1.2.1, ?_⟩
        intro x hx y hy
        rcases List.mem_append.1 hx with hx | hx
        · exact h1.2.2 x hx y hy
        · exact fun e => dis y (by rw [hkab]; simp [hy]) x hx e.symm
      · split
        · exact List.nodup_nil
        · exact w.once p
    · intro c p hcp
      rw [hpar] at hcp
      rw [hkids, hcont]
      split at hcp
      · rename_i hm
        injection hcp with hcp
        left
        rw [if_pos hcp.symm]; simp [hm]
      · rename_i hm
        split at hcp
        · cases hcp
        · rcases w.up c p hcp with h5 | h5
          · left
            split
            · rename_i e
              rw [e, hkab] at h5
              simp only [List.mem_append] at h5 ⊢
              rcases h5 with h5 | h5
              · exact .inl (.inl h5)
              · exact .inr h5
            · split
              · rename_i e; rw [e] at h5; exact absurd h5 hm
              · exact h5
          · exact .inr h5
    · apply rooted_change w1.rooted self
      intro n
      rw [hpar, d.par]
      split
      · rename_i hm; exact .inr (.inr ⟨rfl, hnk n hm⟩)
      · exact .inl rfl
    · obtain ⟨r, hr⟩ := w1.rank
      apply rank_change hr self (r frag)
      intro n
      rw [hpar, d.par]
      split
      · rename_i hm
        refine .inr (.inr ⟨rfl, hnk n hm, Nat.le_of_lt (hr n frag ?_)⟩)
        exact w1.back frag n (by rw [hk1]; exact hm)
      · exact .inl rfl
    · intro p c hc
      rw [hkids] at hc
      rw [hknd]
      split at hc
      · simp only [List.mem_append] at hc
        rcases hc with (hc | hc) | hc
        · exact w.nofrag self c (by rw [hkab]; simp [hc])
        · exact w.nofrag frag c hc
        · exact w.nofrag self c (by rw [hkab]; simp [hc])
      · split at hc
        · cases hc
        · exact w.nofrag p c hc
    · intro t f ht
      rw [hcont] at ht
      rw [hknd, hknd]; exact w.tpl t f ht
    · intro n hn
      rw [hknd] at hn
      rw [hkids, if_neg (by rintro rfl; exact ht hn), w.leaf n hn]
      simp
    · intro n hnn
      rw [next_setKids, next_setParents, next_setKids, d.next] at hnn
      rw [hobj]
      have h6 : n ∉ h.kids frag := by
        intro hm
        have := (w.lt_of_par (w.back frag n hm)).1
        omega
      dsimp only
      rw [if_neg (by omega), if_neg h6, if_neg (by omega)]
      exact w1.fresh n (by rw [d.next]; exact hnn)
    · intro n
      rw [hobj, ← d.skin n]
      dsimp only
      split <;> split <;> split <;> rfl
    · rw [next_setKids, next_setParents, next_setKids, d.next]
    · intro n h3 h4 h5 h6
      rw [hobj]
      dsimp only
      rw [if_neg h3, if_neg h5, if_neg h4]
      exact d.rest n h4 h6
    · intro n
      rw [hobj, ← d.some n]
      have hsm' := hsm
      rw [← d.some self] at hsm'
      have hsf' := hsf
      rw [← d.some frag] at hsf'
      dsimp only
      by_cases e1 : n = self
      · subst e1
        rw [if_pos rfl]; simp [hsm']
      · rw [if_neg e1]
        by_cases e2 : n = frag
        · subst e2
          rw [if_pos rfl]; split <;> simp [hsf']
        · rw [if_neg e2]; split <;> rfl

theorem adopt_raise {fuel : Nat} {h h1 : Heap} {self node : Nat} (ha : h.adopt fuel self node = some (h1, none)) : h1 = h := by
  unfold Heap.adopt at ha
  split at ha
  · simp only [Option.some.injEq, Prod.mk.injEq, and_true] at ha; exact ha.symm
  · dsimp only at ha
    split at ha
    · cases ha
    · split at ha
      · cases ha
      · simp only [Option.some.injEq, Prod.mk.injEq, and_true] at ha; exact ha.symm
      · cases ha

/-- `append_child`. -/
theorem append_ok {fuel : Nat} {h : Heap} {self node : Nat} (w : WF h) (hfs : ∀ n, n < h.next → h.knd n = .fragment → (h.obj n).children.isSome = true)
    (hs : self < h.next) (hn : node < h.next) :
    h.append fuel self node = none ∨ h.append fuel self node = some (h, none) ∨ (h.append fuel self node = some (h, some ()) ∧ (h.obj self).children = none) ∨
    ∃ h', h.append fuel self node = some (h', some ()) ∧ WF h' ∧ (h.obj self).children.isSome ∧
      ((h.knd node ≠ .fragment ∧ ¬ Chain h self node ∧ Placed h h' self node ((h.kids self).filter fun y => y ≠ node) []) ∨
        (h.knd node = .fragment ∧ self ≠ node ∧ Spliced h h' self node (h.kids self) [])) := by
  unfold Heap.append
  split
  · exact .inr (.inl rfl)
  · rename_i ht
    rcases hk : (h.obj self).children with _ | l
    · exact .inr (.inr (.inl ⟨rfl, rfl⟩))
    · dsimp only
      by_cases hf : (h.obj node).kind = .fragment
      · rw [if_pos hf]
        rcases insertFragment_eq (fuel := fuel) (ref := none) w hf hs hn ht (by rw [hk]; rfl) (hfs _ hn hf) (h.kids self) [] (by simp) rfl with h1 | h1 | ⟨h', h1, h2, h3, h4⟩
        · exact .inl h1
        · exact .inr (.inl h1)
        · exact .inr (.inr (.inr ⟨h', h1, h2, rfl, .inr ⟨hf, h4, h3⟩⟩))
      · rw [if_neg hf]
        rcases ha : h.adopt fuel self node with _ | ⟨h1, _ | old⟩
        · exact .inl rfl
        · exact .inr (.inl (by rw [adopt_raise ha]; rfl))
        · obtain ⟨hne, hch, d, -⟩ := adopt_spec w ha
          obtain ⟨h2, h3⟩ := place_ok (a := (h.kids self).filter fun y => y ≠ node) (b := []) w d (by simp) hch hf ht (by rw [hk]; rfl) hs hn
          refine .inr (.inr (.inr ⟨_, ?_, h2, rfl, .inl ⟨hf, hch, h3⟩⟩))
          simp only [Res.andThen]
          rw [d.kids]

/-- `insert_before` a reference node. -/
theorem insertBefore_ok {fuel : Nat} {h : Heap} {self node r : Nat} (w : WF h) (hfs : ∀ n, n < h.next → h.knd n = .fragment → (h.obj n).children.isSome = true)
    (hs : self < h.next) (hn : node < h.next) :
    h.insertBefore fuel self node (some r) = none ∨ h.insertBefore fuel self node (some r) = some (h, none) ∨
    (h.insertBefore fuel self node (some r) = some (h, some ()) ∧ node = r) ∨
    ∃ h' a b, h.insertBefore fuel self node (some r) = some (h', some ()) ∧ WF h' ∧ h.kids self = a ++ r :: b ∧ (h.obj self).children.isSome ∧
      ((h.knd node ≠ .fragment ∧ ¬ Chain h self node ∧ Placed h h' self node (a.filter fun y => y ≠ node) (r :: b.filter fun y => y ≠ node)) ∨
        (h.knd node = .fragment ∧ self ≠ node ∧ Spliced h h' self node a (r :: b))) := by
  unfold Heap.insertBefore
  rcases hk : (h.obj self).children with _ | l
  · exact .inr (.inl rfl)
  · dsimp only
    have hkl : h.kids self = l := by unfold Heap.kids; rw [hk]; rfl
    split
    · rename_i e; exact .inr (.inr (.inl ⟨rfl, e⟩))
    · rename_i hnr
      rcases hi : l.idxOf? r with _ | i
      · exact .inr (.inl rfl)
      · dsimp only
        obtain ⟨h1, h2, h3⟩ := idxOf_split hi
        have hkab : h.kids self = l.take i ++ r :: l.drop (i + 1) := by rw [hkl]; exact h1
        have hlen : (l.take i).length = i := by simp; omega
        have ht : h.knd self ≠ .text := by
          intro e
          rw [w.leaf self e] at hkab
          simp at hkab
        by_cases hf : (h.obj node).kind = .fragment
        · rw [if_pos hf]
          rcases insertFragment_eq (fuel := fuel) (ref := some r) w hf hs hn ht (by rw [hk]; rfl) (hfs _ hn hf) (l.take i) (r :: l.drop (i + 1)) hkab ⟨_, rfl⟩ with
            h4 | h4 | ⟨h', h4, h5, h6, h7⟩
          · exact .inl h4
          · exact .inr (.inl h4)
          · exact .inr (.inr (.inr ⟨h', _, _, h4, h5, hkab, rfl, .inr ⟨hf, h7, h6⟩⟩))
        · rw [if_neg hf]
          rcases ha : h.adopt fuel self node with _ | ⟨h1', _ | old⟩
          · exact .inl rfl
          · exact .inr (.inl (by rw [adopt_raise ha]; rfl))
          · obtain ⟨hne, hch, d, hold⟩ := adopt_spec w ha
            have hfil : (h.kids self).filter (fun y => y ≠ node) = (l.take i).filter (fun y => y ≠ node) ++ r :: (l.drop (i + 1)).filter (fun y => y ≠ node) := by
              rw [hkab, List.filter_append, List.filter_cons, if_pos (by simpa using Ne.symm hnr)]
            obtain ⟨h4, h5⟩ := place_ok w d hfil hch hf ht (by rw [hk]; rfl) hs hn
            refine .inr (.inr (.inr ⟨_, _, _, ?_, h4, hkab, rfl, .inl ⟨hf, hch, h5⟩⟩))
            simp only [Res.andThen]
            have hsh := shift_length w hkab hold
            rw [hlen] at hsh
            rw [d.kids, hfil, hsh, List.take_left, List.drop_left]

theorem remove_detached {h : Heap} {self node : Nat} {l : List Nat} {i : Nat} (w : WF h) (hk : (h.obj self).children = some l) (hi : l.idxOf? node = some i) :
    Detached h ((h.setKids self (l.eraseIdx i)).setParent node none) node ∧ h.par node = some self := by
  have hkl : h.kids self = l := by unfold Heap.kids; rw [hk]; rfl
  obtain ⟨h1, -, -⟩ := idxOf_split hi
  have hm : node ∈ h.kids self := by rw [hkl, h1]; simp
  have hp := w.back self node hm
  refine ⟨⟨?_, ?_, ?_, ?_, ?_, ?_, rfl, ⟨rfl, rfl⟩, ?_⟩, hp⟩
  · intro n; rw [par_setParent, par_setKids]
  · intro n
    rw [kids_setParent, kids_setKids]
    split
    · rename_i e; rw [e, hkl]; exact erase_eq_filter (hkl ▸ w.once self) hi
    · rename_i e
      rw [filter_ne_of_not_mem]
      intro hm2
      have := w.back n node hm2
      rw [hp] at this; injection this with this; exact e this.symm
  · intro n; rw [knd_setParent, knd_setKids]
  · intro n; rw [cont_setParent, cont_setKids]
  · intro n hn hn2
    unfold Heap.setParent Heap.setKids
    rw [obj_mod, if_neg hn, obj_mod, if_neg (by rintro rfl; exact hn2 hp)]
  · intro n
    unfold Heap.setParent Heap.setKids
    rw [obj_mod, obj_mod]
    by_cases e : n = self
    · subst e; split <;> simp [hk]
    · rw [if_neg e]; split <;> rfl
  · intro n
    unfold Heap.setParent Heap.setKids
    rw [obj_mod, obj_mod]
    split <;> split <;> rfl

/-- `remove_child`. -/
theorem remove_ok {h : Heap} {self node : Nat} (w : WF h) (hn : node < h.next) :
    h.remove self node = some (h, none) ∨ (h.remove self node = some (h, some ()) ∧ (h.obj self).children = none) ∨
    ∃ h', h.remove self node = some (h', some ()) ∧ WF h' ∧ node ∈ h.kids self ∧ Detached h h' node := by
  unfold Heap.remove
  split
  · exact .inl rfl
  · rcases hk : (h.obj self).children with _ | l
    · exact .inr (.inl ⟨rfl, rfl⟩)
    · dsimp only
      rcases hi : l.idxOf? node with _ | i
      · exact .inl rfl
      · dsimp only
        obtain ⟨d, hp⟩ := remove_detached w hk hi
        refine .inr (.inr ⟨_, rfl, detached_wf w d hn, ?_, d⟩)
        unfold Heap.kids
        rw [hk]
        rw [show (some l).getD [] = l from rfl, (idxOf_split hi).1]; simp


/-- `replace_child`: the new node (or the children of the new fragment) is put before the old one, then the old one is taken out. -/
theorem replace_ok {fuel : Nat} {h : Heap} {self new old : Nat} (w : WF h) (hfs : ∀ n, n < h.next → h.knd n = .fragment → (h.obj n).children.isSome = true)
    (hs : self < h.next) (hn : new < h.next) (ho : old < h.next) :
    h.replace fuel self new old = none ∨ h.replace fuel self new old = some (h, none) ∨
    (h.replace fuel self new old = some (h, some ()) ∧ new = old ∧ old ∈ h.kids self) ∨
    ∃ h1 h' a b, h.replace fuel self new old = some (h', some ()) ∧ WF h1 ∧ WF h' ∧ new ≠ old ∧ h.kids self = a ++ old :: b ∧ Detached h1 h' old ∧
      ((h.knd new ≠ .fragment ∧ ¬ Chain h self new ∧ Placed h h1 self new (a.filter fun y => y ≠ new) (old :: b.filter fun y => y ≠ new)) ∨
        (h.knd new = .fragment ∧ self ≠ new ∧ Spliced h h1 self new a (old :: b))) := by
  unfold Heap.replace
  rcases hk : (h.obj self).children with _ | l
  · exact .inr (.inl rfl)
  · dsimp only
    have hkl : h.kids self = l := by unfold Heap.kids; rw [hk]; rfl
    rcases hi : l.idxOf? old with _ | i
    · exact .inr (.inl rfl)
    · dsimp only
      obtain ⟨h1, h2, h3⟩ := idxOf_split hi
      have hkab : h.kids self = l.take i ++ old :: l.drop (i + 1) := by rw [hkl]; exact h1
      have hlen : (l.take i).length = i := by simp; omega
      have ht : h.knd self ≠ .text := by
        intro e
        rw [w.leaf self e] at hkab
        simp at hkab
      split
      · rename_i e; exact .inr (.inr (.inl ⟨rfl, e, by rw [hkab]; simp⟩))
      · rename_i hno
        by_cases hf : (h.obj new).kind = .fragment
        · rw [if_pos hf]
          rcases insertFragment_eq (fuel := fuel) (ref := some old) w hf hs hn ht (by rw [hk]; rfl) (hfs _ hn hf) (l.take i) (old :: l.drop (i + 1)) hkab ⟨_, rfl⟩ with
            h4 | h4 | ⟨h', h4, h5, h6, h7⟩
          · rw [h4]; exact .inl rfl
          · rw [h4]; exact .inr (.inl rfl)
          · rw [h4]
            simp only [Res.andThen]
            have hmem : old ∈ h'.kids self := by rw [h6.kids, if_pos rfl]; simp
            rcases remove_ok (self := self) (node := old) h5 (by rw [h6.next]; exact ho) with h8 | ⟨h8, h9⟩ | ⟨h'', h8, h9, -, h10⟩
            · exfalso
              unfold Heap.remove at h8
              split at h8
              · rename_i e
                rw [h5.leaf self e] at hmem
                cases hmem
              · split at h8
                · cases h8
                · rename_i l' hl'
                  have hm2 : old ∈ l' := by
                    unfold Heap.kids at hmem; rw [hl'] at hmem; exact hmem
                  split at h8
                  · rename_i e; exact idxOf_none.1 e hm2
                  · simp at h8
            · exfalso
              unfold Heap.kids at hmem; rw [h9] at hmem; cases hmem
            · exact .inr (.inr (.inr ⟨h', h'', _, _, h8, h5, h9, hno, hkab, h10, .inr ⟨hf, h7, h6⟩⟩))
        · rw [if_neg hf]
          rcases ha : h.adopt fuel self new with _ | ⟨h1', _ | o⟩
          · exact .inl rfl
          · exact .inr (.inl (by rw [adopt_raise ha]; rfl))
          · obtain ⟨hne, hch, d, hold⟩ := adopt_spec w ha
            have hfil : (h.kids self).filter (fun y => y ≠ new) = (l.take i).filter (fun y => y ≠ new) ++ old :: (l.drop (i + 1)).filter (fun y => y ≠ new) := by
              rw [hkab, List.filter_append, List.filter_cons, if_pos (by simpa using Ne.symm hno)]
            obtain ⟨h4, h5⟩ := place_ok w d hfil hch hf ht (by rw [hk]; rfl) hs hn
            have hsh := shift_length w hkab hold
            rw [hlen] at hsh
            simp only [Res.andThen]
            have hset : (h1'.kids self).set (shiftIndex self i o) new =
                (l.take i).filter (fun y => y ≠ new) ++ new :: (l.drop (i + 1)).filter (fun y => y ≠ new) := by
              rw [d.kids, hfil, hsh, List.set_append_right _ _ (Nat.le_refl _), Nat.sub_self]; rfl
            rw [hset]
            generalize ha' : (l.take i).filter (fun y => y ≠ new) = a' at h4 h5
            generalize hb' : (l.drop (i + 1)).filter (fun y => y ≠ new) = b' at h4 h5
            have hnd := h4.once self
            rw [kids_setParent, kids_setKids, if_pos rfl] at hnd
            have hD : Detached ((h1'.setKids self (a' ++ new :: old :: b')).setParent new (some self))
                (((h1'.setKids self (a' ++ new :: b')).setParent new (some self)).setParent old none) old := by
              refine ⟨?_, ?_, ?_, ?_, ?_, ?_, rfl, ⟨rfl, rfl⟩, ?_⟩
              · intro n; simp only [par_setParent, par_setKids]
              · intro n
                simp only [kids_setParent, kids_setKids]
                split
                · have e : a' ++ new :: old :: b' = (a' ++ [new]) ++ old :: b' := by simp
                  rw [e] at hnd ⊢
                  rw [filter_ne_split hnd]; simp
                · rename_i e
                  rw [filter_ne_of_not_mem]
                  intro hm
                  rw [d.kids, List.mem_filter] at hm
                  have e1 := w.back n old hm.1
                  have e2 := w.back self old (by rw [hkab]; simp)
                  rw [e1] at e2; injection e2 with e2; exact e e2
              · intro n; simp only [knd_setParent, knd_setKids]
              · intro n; simp only [cont_setParent, cont_setKids]
              · intro n h6 h7
                have h8 : n ≠ self := by
                  rintro rfl
                  apply h7
                  rw [par_setParent, par_setKids, if_neg (Ne.symm hno), d.par, if_neg (Ne.symm hno)]
                  exact w.back n old (by rw [hkab]; simp)
                unfold Heap.setParent Heap.setKids
                simp only [obj_mod]
                rw [if_neg h6, if_neg h8, if_neg h8]
              · intro n
                unfold Heap.setParent Heap.setKids
                simp only [obj_mod]
                split <;> split <;> split <;> rfl
              · intro n
                unfold Heap.setParent Heap.setKids
                simp only [obj_mod]
                split <;> split <;> split <;> rfl
            refine .inr (.inr (.inr ⟨_, _, l.take i, l.drop (i + 1), rfl, h4, detached_wf h4 hD (by rw [h5.next]; exact ho), hno, hkab, hD, .inl ⟨hf, hch, ?_⟩⟩))
            rw [ha', hb']; exact h5

end JH
