import Verif.Lemmas.EngIns

/-! Reconstruction and the adoption agency consist of primitive changes. -/
namespace JH.Eng

/-- A node that may be moved. -/
def Movable (s : St) (i : Nat) : Prop := i < s.heap.length ∧ (s.n i).ns ≠ poNs

theorem Movable.same {s t : St} {i : Nat} (h : Movable s i) (k : Same s t) : Movable t i :=
  ⟨Nat.lt_of_lt_of_le h.1 k.1, by rw [(k.2 i h.1).2.2]; exact h.2⟩

theorem scanDownFrom_spec (p : Nat → Bool) (l : List Nat) : ∀ n i, scanDownFrom p l n = some i → i ≤ n ∧ 0 < i ∧ p (l.getD i 0) = true := by
  intro n
  induction n with
  | zero => intro i h; simp [scanDownFrom] at h
  | succ n ih =>
    intro i h
    unfold scanDownFrom at h
    split at h
    · next hp =>
      simp only [Option.some.injEq] at h
      subst h
      exact ⟨Nat.le_refl _, Nat.succ_pos _, hp⟩
    · have := ih i h
      exact ⟨Nat.le_succ_of_le this.1, this.2⟩

theorem lastIdx_spec {s : St} {p : ENode → Bool} {i : Nat} (h : s.lastIdx p = some i) :
    s.stack[i]? = some (s.stack.getD i 0) ∧ 0 < i ∧ p (s.n (s.stack.getD i 0)) = true := by
  have := scanDownFrom_spec _ _ _ _ h
  have hlt : i < s.stack.length := by omega
  exact ⟨by rw [List.getD_eq_getElem?_getD, List.getElem?_eq_getElem hlt]; rfl, this.2⟩

/-- Nothing above the index that was found. -/
theorem scanDownFrom_last (p : Nat → Bool) (l : List Nat) : ∀ n i, i ≤ n → (scanDownFrom p l n = none ∨ ∃ b, scanDownFrom p l n = some b ∧ b < i) → 0 < i → p (l.getD i 0) = false := by
  intro n
  induction n with
  | zero => intro i h _ h0; omega
  | succ n ih =>
    intro i hi h h0
    unfold scanDownFrom at h
    cases hp : p (l.getD (n + 1) 0) with
    | true =>
      rw [if_pos hp] at h
      rcases h with h | ⟨b, h, hb⟩
      · simp at h
      · simp only [Option.some.injEq] at h; omega
    | false =>
      rw [if_neg (by rw [hp]; simp)] at h
      by_cases hin : i = n + 1
      · subst hin; exact hp
      · exact ih i (by omega) h h0

section
variable {C : Cfg}

theorem fmtGet {s : St} {i : Nat} {e : FEntry} (h : s.fmt.getD i none = some e) : s.fmt[i]? = some (some e) := by
  rw [List.getD_eq_getElem?_getD] at h
  cases hg : s.fmt[i]? with
  | none => rw [hg] at h; simp at h
  | some x => rw [hg] at h; simp at h; rw [h]

/-- The entry of the node that was just inserted. -/
theorem Steps.setEntry (i : Nat) {node : Nat} {s t : St} (h : Steps C s t) (hf : Tidy s → ¬ Fixed t node) : Steps C s (setEntryNode i node C t).2 :=
  ⟨h.chain.trans (setEntryNode_chain i node t), fun k => setEntryNode_tidy i node (h.tidy k) (hf k)⟩

instance [Ok C] (n i : Nat) : Does C (reconLoop n i) := by
  induction n generalizing i with
  | zero => unfold reconLoop; does
  | succ n ih =>
    have hl := ih (i + 1)
    unfold reconLoop
    refine Does.bindQ fun s => ?_
    cases he : s.fmt.getD i none with
    | none => exact does_steps (m := do pure (); reconLoop n (i + 1)) (by does) s
    | some e =>
      refine bind_steps (whQ_steps fun _ => ?_) (hl.out _)
      obtain ⟨h1, h2, h3⟩ := insertEl_steps (C := C) e.name e.attrs false s.curParent s (.inr ⟨e, List.mem_of_getElem? (fmtGet he), rfl⟩)
        (fun _ => .inr ⟨e, List.mem_of_getElem? (fmtGet he), rfl, rfl⟩)
      exact Steps.setEntry i h1 h3

instance [Ok C] : Does C reconstruct := by unfold reconstruct; does
instance [Ok C] : Does C reconIfDirty := by unfold reconIfDirty; does

instance (i : Nat) : Does C (retireAt i) := by
  refine ⟨fun s => ?_⟩
  show Steps C s (if i + 1 = s.fmt.length then ({ s with fmt := s.fmt.dropLast } : St)
    else { s with fmt := s.fmt.set i ((s.fmt.getD i none).map fun e => { e with active := false }), fmtRetired := s.fmtRetired + 1 })
  split
  · exact Steps.fmtMem s.fmt.dropLast (fun e he => List.dropLast_subset _ he) rfl
  · refine Steps.fmtOf _ (fun e he => ?_) rfl
    rcases List.mem_or_eq_of_mem_set he with h | h
    · exact ⟨e, h, rfl, rfl, rfl⟩
    · have h2 := h.symm
      rw [Option.map_eq_some_iff] at h2
      obtain ⟨f, hf, hfe⟩ := h2
      exact ⟨f, List.mem_of_getElem? (fmtGet hf), by rw [← hfe], by rw [← hfe], by rw [← hfe]⟩

theorem cloneEntry_does (e : FEntry) (s : St) (h : some e ∈ s.fmt) :
    Chain C s (cloneEntry e C s).2 ∧ Movable (cloneEntry e C s).2 (cloneEntry e C s).1 ∧ (cloneEntry e C s).2.fmt = s.fmt := by
  unfold cloneEntry
  simp only [bind_eq, pure_eq]
  have ha : alloc (elementNode e.name e.attrs (some c%"html")) C s = (s.heap.length, s.add (elementNode e.name e.attrs (some c%"html"))) := rfl
  rw [ha]
  have hm : Movable (s.add (elementNode e.name e.attrs (some c%"html"))) s.heap.length :=
    ⟨by rw [len_add]; exact Nat.lt_succ_self _, by rw [n_add_eq]; simp [elementNode, poNs]⟩
  unfold whQ
  by_cases hc : (!C.plan.rawMode && !C.plan.allowedTags.contains e.name) = true
  · rw [if_pos hc]
    exact ⟨.one (.clone e true h (.inl rfl)), hm.same (Same.of_heap rfl), rfl⟩
  · rw [if_neg hc]
    have : C.plan.rawMode = true ∨ e.name ∈ C.plan.allowedTags := by
      simp only [Bool.and_eq_true, Bool.not_eq_true', not_and, Bool.not_eq_false] at hc
      cases hr : C.plan.rawMode with
      | true => exact .inl rfl
      | false => exact .inr (by simpa using hc hr)
    have h1 := Step.clone (C := C) e false h (.inr this)
    simp only [Bool.false_eq_true, if_false, List.append_nil] at h1
    exact ⟨.one h1, hm, rfl⟩

theorem count_set (l : List Nat) (i x j : Nat) (h : j ≠ x) : (l.set i x).count j ≤ l.count j := by
  induction l generalizing i with
  | nil => simp
  | cons a l ih =>
    cases i with
    | zero =>
      simp only [List.set_cons_zero, List.count_cons]
      have : (x == j) = false := by simpa using fun he => h he.symm
      rw [this]; simp
    | succ i =>
      simp only [List.set_cons_succ, List.count_cons]
      have := ih i
      omega

theorem stackSet_chain (s : St) (i x : Nat) (h : Movable s x) : Chain C s { s with stack := s.stack.set i x } := by
  refine .one (.stack _ fun j => ?_)
  by_cases hj : j = x
  · subst hj; exact .inr (.inr (.inr (.inr (.inr h))))
  · exact .inl (count_set _ _ _ _ hj)

theorem move_chain (s : St) (last p pos : Nat) (h : Movable s last) : Chain C s ((s.detach last).link p pos last) := .one (.move last p pos h.1 h.2)

theorem appendMoved_chain (s : St) (last p : Nat) (h : Movable s last) : Chain C s ((s.detach last).appendMoved p last) := by
  unfold St.appendMoved
  rw [linkLast_eq]
  exact move_chain s last _ _ h

theorem scanFmt_spec (l : List (Option FEntry)) (hit : FEntry → Bool) (stop : Bool) : ∀ n j, scanFmt l hit stop n = some j →
    ∃ e, l.getD j none = some e ∧ hit e = true := by
  intro n
  induction n with
  | zero => intro j h; simp [scanFmt] at h
  | succ n ih =>
    intro j h
    unfold scanFmt at h
    cases hg : l.getD n none with
    | none =>
      rw [hg] at h
      simp only at h
      split at h
      · simp at h
      · exact ih j h
    | some e =>
      rw [hg] at h
      simp only at h
      split at h
      · next hh => simp only [Option.some.injEq] at h; subst h; exact ⟨e, hg, hh⟩
      · exact ih j h

/-- What the inner loop keeps. -/
structure Loop (C : Cfg) (s : St) (fi : Nat) (e : FEntry) (t : St) (last : Nat) : Prop where
  steps : Chain C s t
  entry : t.fmt[fi]? = some (some e)
  last : Movable t last

theorem adoptInner_eq (fe fb i k bm last : Nat) (s : St) : adoptInner fe fb (i + 1) k bm last C s =
    (if s.stack.getD i 0 = fe then pure (bm, last)
     else
      match s.fmtByNode (s.stack.getD i 0) with
      | none => do
        markDirty
        modS fun s => { s with stack := s.stack.eraseIdx i }
        adoptInner fe fb i (k + 1) bm last
      | some j =>
        match s.fmt.getD j none with
        | none => pure (bm, last)
        | some e =>
          if k + 1 > 3 then do
            retireAt j
            markDirty
            modS fun s => { s with stack := s.stack.eraseIdx i }
            adoptInner fe fb i (k + 1) (if j < bm then bm - 1 else bm) last
          else do
            let node ← cloneEntry e
            setEntryNode j node
            modS fun s => { s with stack := s.stack.set i node }
            modS fun s => (s.detach last).appendMoved node last
            adoptInner fe fb i (k + 1) (if last = fb then j + 1 else bm) node : EM (Nat × Nat)) C s := rfl

theorem adoptInner_does (fi : Nat) (e : FEntry) (fb : Nat) (s0 : St) : ∀ i k bm last s, Loop C s0 fi e s last →
    Loop C s0 fi e (adoptInner e.node fb i k bm last C s).2 (adoptInner e.node fb i k bm last C s).1.2 := by
  intro i
  induction i with
  | zero => intro k bm last s h; exact h
  | succ i ih =>
    intro k bm last s h
    rw [adoptInner_eq]
    by_cases hs : s.stack.getD i 0 = e.node
    · rw [if_pos hs]; exact h
    · rw [if_neg hs]
      cases hj : s.fmtByNode (s.stack.getD i 0) with
      | none =>
        simp only [bind_eq]
        refine ih _ _ _ _ ?_
        have h1 : Does C (do markDirty; modS fun s => { s with stack := s.stack.eraseIdx i }) := by does
        have h2 := (h1.out s).chain
        refine ⟨h.steps.trans h2, ?_, h.last.same h2.same⟩
        show (markDirty C s).2.fmt[fi]? = _
        unfold markDirty modS
        simp only
        split <;> exact h.entry
      | some j =>
        simp only
        obtain ⟨e1, he1, hh⟩ := scanFmt_spec _ _ _ _ _ hj
        have hne : j ≠ fi := by
          intro hx
          subst hx
          have := fmtGet he1
          rw [h.entry] at this
          simp only [Option.some.injEq] at this
          subst this
          simp only [Bool.and_eq_true, decide_eq_true_eq] at hh
          exact hs hh.2.symm
        have hent : ∀ x, (s.fmt.set j x)[fi]? = some (some e) := fun x => by rw [List.getElem?_set_ne hne]; exact h.entry
        cases hg : s.fmt.getD j none with
        | none => exact h
        | some e2 =>
          simp only
          by_cases hk : k + 1 > 3
          · rw [if_pos hk]
            simp only [bind_eq]
            refine ih _ _ _ _ ?_
            have h1 : Does C (do retireAt j; markDirty; modS fun s => { s with stack := s.stack.eraseIdx i }) := by does
            have h2 := (h1.out s).chain
            refine ⟨h.steps.trans h2, ?_, h.last.same h2.same⟩
            have h3 : (retireAt j C s).2.fmt[fi]? = some (some e) := by
              unfold retireAt modS
              simp only
              split
              · next hl =>
                have hlt : fi < s.fmt.length := by
                  have := h.entry
                  exact (List.getElem?_eq_some_iff.1 this).1
                rw [List.dropLast_eq_take, List.getElem?_take_of_lt (by omega)]
                exact h.entry
              · exact hent _
            show (markDirty C (retireAt j C s).2).2.fmt[fi]? = _
            unfold markDirty modS
            simp only
            split <;> exact h3
          · rw [if_neg hk]
            simp only [bind_eq]
            refine ih _ _ _ _ ?_
            obtain ⟨c1, c2, c3⟩ := cloneEntry_does (C := C) e2 s (List.mem_of_getElem? (fmtGet hg))
            generalize cloneEntry e2 C s = r at c1 c2 c3
            have s1 := setEntryNode_chain (C := C) j r.1 r.2
            have m1 := c2.same s1.same
            have s2 := stackSet_chain (C := C) (setEntryNode j r.1 C r.2).2 i r.1 m1
            have ml := ((h.last.same c1.same).same s1.same).same s2.same
            have s3 := appendMoved_chain (C := C) _ last r.1 ml
            refine ⟨h.steps.trans (c1.trans (s1.trans (s2.trans s3))), ?_, (m1.same s2.same).same s3.same⟩
            have hfmt : ∀ (t : St) (a b : Nat), ((t.detach a).appendMoved b a).fmt = t.fmt := by
              intro t a b
              unfold St.detach St.appendMoved St.linkLast St.upd
              split
              · rfl
              · split <;> rfl
            show (St.appendMoved _ _ _).fmt[fi]? = _
            rw [hfmt]
            show ((setEntryNode j r.1 C r.2).2).fmt[fi]? = _
            unfold setEntryNode modS
            simp only
            rw [c3]
            exact hent _

theorem insertMoved_chain (s : St) (last p pos : Nat) (h : Movable s last) : Chain C s ((s.detach last).insertMoved p pos last) := move_chain s last _ _ h

theorem placeLast_chain (fsi last : Nat) (s : St) (h : Movable s last) : Chain C s (placeLast fsi last C s).2 ∧ (placeLast fsi last C s).2.fmt = s.fmt := by
  unfold placeLast
  simp only [bind_eq, modS, q]
  split
  · refine ⟨appendMoved_chain s last _ h, ?_⟩
    unfold St.detach St.appendMoved St.linkLast St.upd
    split
    · rfl
    · split <;> rfl
  · refine ⟨insertMoved_chain s last _ _ h, ?_⟩
    unfold St.detach St.insertMoved St.link St.upd
    split
    · rfl
    · split <;> rfl

theorem foldl_fmt {f : St → Nat → St} (h : ∀ s c, (f s c).fmt = s.fmt) : ∀ (l : List Nat) (s : St), (l.foldl f s).fmt = s.fmt := by
  intro l
  induction l with
  | nil => exact fun _ => rfl
  | cons x l ih => exact fun s => (ih (f s x)).trans (h s x)

theorem replaceEntry_steps (e : FEntry) (node bm : Nat) (s : St) (h : some e ∈ s.fmt) :
    Chain C s (replaceEntry e node bm C s).2 ∧ (Tidy s → ¬ Fixed s node → Tidy (replaceEntry e node bm C s).2) := by
  unfold replaceEntry
  rw [bind_eq]
  have h1 := (inferInstance : Does C (retire e.eid)).out s
  have hsub : ∀ x, some x ∈ (retire e.eid C s).2.fmt → ∃ x', some x' ∈ s.fmt ∧ x.name = x'.name ∧ x.attrs = x'.attrs ∧ x.node = x'.node := by
    intro x hx
    unfold retire modS at hx
    simp only at hx
    split at hx
    · exact ⟨x, List.dropLast_subset _ hx, rfl, rfl, rfl⟩
    · obtain ⟨y, hy, hxe⟩ := List.mem_map.1 hx
      cases y with
      | none => simp [deactivate] at hxe
      | some f =>
        simp only [deactivate, Option.map_some, Option.some.injEq] at hxe
        refine ⟨f, hy, ?_⟩
        rw [← hxe]
        split <;> exact ⟨rfl, rfl, rfl⟩
  have hcore : (retire e.eid C s).2.core = ({ s with fmt := (retire e.eid C s).2.fmt } : St).core := by
    unfold retire modS
    simp only
    split <;> rfl
  have hmem : ∀ x, some x ∈ (retire e.eid C s).2.fmt.take (bm - 1) ++ some { e with eid := (retire e.eid C s).2.fmtNext, node := node, active := true } ::
      (retire e.eid C s).2.fmt.drop (bm - 1) → (∃ x', some x' ∈ s.fmt ∧ x.name = x'.name ∧ x.attrs = x'.attrs ∧ (x.node = x'.node ∨ x.node = node)) := by
    intro x hx
    rcases List.mem_append.1 hx with hx | hx
    · obtain ⟨x', k1, k2, k3, k4⟩ := hsub x (List.mem_of_mem_take hx)
      exact ⟨x', k1, k2, k3, .inl k4⟩
    · rcases List.mem_cons.1 hx with hx | hx
      · simp only [Option.some.injEq] at hx
        rw [hx]; exact ⟨e, h, rfl, rfl, .inr rfl⟩
      · obtain ⟨x', k1, k2, k3, k4⟩ := hsub x (List.mem_of_mem_drop hx)
        exact ⟨x', k1, k2, k3, .inl k4⟩
  have hc : (modS (fun s : St => { s with fmt := s.fmt.take (bm - 1) ++ some { e with eid := s.fmtNext, node := node, active := true } :: s.fmt.drop (bm - 1), fmtNext := s.fmtNext + 1 }) C
      (retire e.eid C s).2).2.core = ({ s with fmt := (retire e.eid C s).2.fmt.take (bm - 1) ++ some { e with eid := (retire e.eid C s).2.fmtNext, node := node, active := true } :: (retire e.eid C s).2.fmt.drop (bm - 1) } : St).core := by
    unfold St.core at hcore ⊢
    simp only [Prod.mk.injEq] at hcore ⊢
    exact ⟨hcore.1, hcore.2.1, hcore.2.2.1, hcore.2.2.2.1, hcore.2.2.2.2.1, hcore.2.2.2.2.2.1, hcore.2.2.2.2.2.2.1, rfl, hcore.2.2.2.2.2.2.2.2⟩
  refine ⟨.tail (.one (.fmt _ fun x hx => ?_)) (.ctl hc), fun k hf => ?_⟩
  · obtain ⟨x', k1, k2, k3, _⟩ := hmem x hx
    exact ⟨x', k1, k2, k3⟩
  · refine Tidy.ctl (k.fmtNew fun x hx => ?_) hc
    obtain ⟨x', k1, k2, _, k3⟩ := hmem x hx
    have := k.fmtn x' k1
    rw [k2]
    refine ⟨?_, this.2⟩
    rcases k3 with k3 | k3
    · rw [k3]; exact this.1
    · rw [k3]; exact hf

theorem special_movable {s : St} {i : Nat} (h : specialNode (s.n i) = true) : Movable s i := by
  unfold specialNode at h
  rw [Bool.and_eq_true] at h
  constructor
  · apply Nat.lt_of_not_ge
    intro hge
    rw [n_ge s hge] at h
    exact absurd h.2 (by decide)
  · intro hx
    rw [hx] at h
    exact absurd h.1 (by decide)

theorem findIdx?_getD {l : List Nat} {p : Nat → Bool} {i : Nat} (h : l.findIdx? p = some i) : i < l.length ∧ p (l.getD i 0) = true := by
  rw [List.findIdx?_eq_some_iff_getElem] at h
  obtain ⟨hlt, hp, _⟩ := h
  exact ⟨hlt, by rw [List.getD_eq_getElem?_getD, List.getElem?_eq_getElem hlt]; exact hp⟩

theorem furthest_spec {s : St} {fsi fbi : Nat} (h : s.furthest fsi = some fbi) : Movable s (s.stack.getD fbi 0) := by
  unfold St.furthest at h
  rw [Option.map_eq_some_iff] at h
  obtain ⟨k, hk, hkf⟩ := h
  obtain ⟨hlt, hp⟩ := findIdx?_getD hk
  rw [Bool.and_eq_true] at hp
  have : (s.stack.drop (fsi + 1)).getD k 0 = s.stack.getD fbi 0 := by
    rw [List.getD_eq_getElem?_getD, List.getD_eq_getElem?_getD, List.getElem?_drop, ← hkf, Nat.add_comm]
  rw [this] at hp
  exact special_movable hp.2

/-- The new formatting element goes between the furthest block and its children. -/
theorem wrap_chain (e : FEntry) (fb : Nat) (s : St) (he : some e ∈ s.fmt) (hb : Movable s fb) :
    Chain C s (((cloneEntry e C s).2.moveChildren fb (cloneEntry e C s).1).appendMoved fb (cloneEntry e C s).1) ∧
    Movable (((cloneEntry e C s).2.moveChildren fb (cloneEntry e C s).1).appendMoved fb (cloneEntry e C s).1) (cloneEntry e C s).1 ∧
    (((cloneEntry e C s).2.moveChildren fb (cloneEntry e C s).1).appendMoved fb (cloneEntry e C s).1).fmt = s.fmt := by
  obtain ⟨_, c2, c3⟩ := cloneEntry_does (C := C) e s he
  have c4 : Movable (((cloneEntry e C s).2.moveChildren fb (cloneEntry e C s).1).appendMoved fb (cloneEntry e C s).1) (cloneEntry e C s).1 :=
    (c2.same (Same.moveChildren _ fb (cloneEntry e C s).1)).same (Same.linkLast _ _ (cloneEntry e C s).1)
  refine ⟨?_, c4, ?_⟩
  · unfold cloneEntry
    simp only [bind_eq, pure_eq]
    have ha : alloc (elementNode e.name e.attrs (some c%"html")) C s = (s.heap.length, s.add (elementNode e.name e.attrs (some c%"html"))) := rfl
    rw [ha]
    unfold whQ
    by_cases hc : (!C.plan.rawMode && !C.plan.allowedTags.contains e.name) = true
    · rw [if_pos hc]
      exact .one (.wrap e true fb he (.inl rfl) hb.1 hb.2)
    · rw [if_neg hc]
      have : C.plan.rawMode = true ∨ e.name ∈ C.plan.allowedTags := by
        simp only [Bool.and_eq_true, Bool.not_eq_true', not_and, Bool.not_eq_false] at hc
        cases hr : C.plan.rawMode with
        | true => exact .inl rfl
        | false => exact .inr (by simpa using hc hr)
      have h1 := Step.wrap (C := C) e false fb he (.inr this) hb.1 hb.2
      simp only [Bool.false_eq_true, if_false, List.append_nil] at h1
      exact .one h1
  · rw [← c3]
    show (List.foldl _ _ _ : St).fmt = _
    generalize (cloneEntry e C s).1 = x
    exact foldl_fmt (f := fun t c => t.appendMoved x c) (fun _ _ => rfl) _ _

theorem insertAfter_chain (s : St) (fb node : Nat) (h : Movable s node) :
    Chain C s (match indexOf? s.stack fb with
      | none => s
      | some i => { s with stack := s.stack.take (i + 1) ++ node :: s.stack.drop (i + 1) }) := by
  split
  · exact .refl
  · next i _ =>
    refine .one (.stack _ fun j => ?_)
    by_cases hj : j = node
    · subst hj; exact .inr (.inr (.inr (.inr (.inr h))))
    · left
      rw [List.count_append, List.count_cons]
      have : (node == j) = false := by simpa using fun he => hj he.symm
      rw [this]
      have := List.count_append (a := j) (l₁ := s.stack.take (i + 1)) (l₂ := s.stack.drop (i + 1))
      rw [List.take_append_drop] at this
      simp only [Bool.false_eq_true, if_false]
      omega

/-! ### The nodes still form a tree -/

theorem Tidy.later {s : St} (h : Tidy s) {i k a b : Nat} (hi : s.stack[i]? = some a) (hk : s.stack[k]? = some b) (hik : i < k) (ha : ¬ Fixed s a) : ¬ Fixed s b := by
  obtain ⟨h1, h2⟩ := List.getElem?_eq_some_iff.1 hi
  obtain ⟨h3, h4⟩ := List.getElem?_eq_some_iff.1 hk
  rcases List.pairwise_iff_getElem.1 h.ord.2 i k h1 h3 hik with x | x
  · exact absurd (h2 ▸ x.1) ha
  · exact h4 ▸ x.1

theorem cloneEntry_eq (e : FEntry) (s : St) : ∃ l, cloneEntry e C s = (s.heap.length, { s.add (elementNode e.name e.attrs (some c%"html")) with toUnwrap := l }) := by
  unfold cloneEntry
  simp only [bind_eq, pure_eq]
  have ha : alloc (elementNode e.name e.attrs (some c%"html")) C s = (s.heap.length, s.add (elementNode e.name e.attrs (some c%"html"))) := rfl
  rw [ha]
  unfold whQ
  split
  · exact ⟨s.toUnwrap ++ [s.heap.length], rfl⟩
  · exact ⟨s.toUnwrap, rfl⟩

theorem cloneEntry_tidy (e : FEntry) {s : St} (h : Tidy s) : Tidy (cloneEntry e C s).2 ∧ Fresh (cloneEntry e C s).2 (cloneEntry e C s).1 ∧
    Loose (Live (cloneEntry e C s).2) (cloneEntry e C s).2 (cloneEntry e C s).1 := by
  obtain ⟨l, hl⟩ := cloneEntry_eq (C := C) e s
  rw [hl]
  obtain ⟨k1, k2, k3⟩ := leaf_tidy h (n := elementNode e.name e.attrs (some c%"html")) rfl rfl (by simp [elementNode]) (by simp [elementNode, poNs])
  exact ⟨k1.core rfl, k2.core rfl, k3⟩

/-- A move below an open element that comes earlier. -/
theorem Tidy.moveUnder {s : St} (h : Tidy s) {i j x c : Nat} (hi : s.stack[i]? = some x) (hj : s.stack[j]? = some c) (hij : i < j) (hf : ¬ Fixed s c)
    (hns : (s.n c).ns ≠ poNs) (p pos : Nat) (hP : Tidy (s.detach c) → p < (s.detach c).heap.length → Live (s.detach c) p → ∀ b, ((s.detach c).n b).kind ≠ .fragment → Over (s.detach c) b p → Over (s.detach c) b x) :
    Tidy ((s.detach c).link p pos c) := by
  have hk : (s.n c).kind ≠ .fragment := (h.ord.1 c (List.mem_of_getElem? hj)).resolve_left hf
  obtain ⟨h1, h2⟩ := h.detach c hk
  have hst : (s.detach c).stack = s.stack := by obtain ⟨k, hk⟩ := detach_frame s c; rw [hk]
  refine h1.relink p pos c x i j (by rw [hst]; exact hi) (by rw [hst]; exact hj) hij (fun k => hf ((fixed_of (detach_fixed s c) c).1 k)) ?_ ?_ (hP h1)
  · rw [(ns_of_heads (heads_detach s c) c).1]; exact hns
  · intro q hq; exact h2 q ((live_frame (heads_detach s c) hst q).1 hq)

theorem linkFrame (s : St) (p pos c : Nat) : ∃ k, s.link p pos c = { s with heap := k } := ⟨_, rfl⟩

theorem moved_frame (s : St) (c p pos : Nat) : ((s.detach c).link p pos c).stack = s.stack ∧ ((s.detach c).link p pos c).fixed = s.fixed ∧ ((s.detach c).link p pos c).heads = s.heads := by
  obtain ⟨k, hk⟩ := detach_frame s c
  obtain ⟨l, hl⟩ := linkFrame (s.detach c) p pos c
  have h3 : ((s.detach c).link p pos c).heads = s.heads := (heads_link _ _ _ _).trans (heads_detach s c)
  refine ⟨?_, ?_, h3⟩
  · rw [hl, hk]
  · rw [hl, hk]; rfl

/-- What the inner loop keeps: the formatting element `fe` at index `fsi`, the last node at an index from `n` on, and no tables and templates above `fe`. -/
structure TLoop (fsi fe n : Nat) (t : St) (last : Nat) : Prop where
  tidy : Tidy t
  here : t.stack[fsi]? = some fe
  nf : ¬ Fixed t fe
  lt : fsi < n
  last : ∃ j, n ≤ j ∧ t.stack[j]? = some last
  names : ∀ k x, fsi < k → t.stack[k]? = some x → (t.n x).name ≠ c%"table" ∧ (t.n x).name ≠ c%"template"

theorem TLoop.weaken {fsi fe n m : Nat} {t : St} {last : Nat} (h : TLoop fsi fe n t last) (h1 : fsi < m) (h2 : m ≤ n) : TLoop fsi fe m t last :=
  ⟨h.tidy, h.here, h.nf, h1, h.last.imp fun _ k => ⟨Nat.le_trans h2 k.1, k.2⟩, h.names⟩

theorem TLoop.erase {fsi fe i : Nat} {t u : St} {last : Nat} (h : TLoop fsi fe (i + 1) t last) (hi : fsi < i) (hu : Tidy u) (hh : u.heap = t.heap)
    (hf : u.fixed = t.fixed) (hs : u.stack = t.stack.eraseIdx i) : TLoop fsi fe i u last := by
  have hn : ∀ x, u.n x = t.n x := fun x => by unfold St.n; rw [hh]
  refine ⟨hu, ?_, fun k => h.nf ((fixed_of hf _).1 k), hi, ?_, fun k x hk hx => ?_⟩
  · rw [hs, List.getElem?_eraseIdx_of_lt hi]; exact h.here
  · obtain ⟨j, hj, hl⟩ := h.last
    refine ⟨j - 1, by omega, ?_⟩
    rw [hs, List.getElem?_eraseIdx_of_ge (by omega)]
    rw [show j - 1 + 1 = j from by omega]; exact hl
  · rw [hn]
    rw [hs] at hx
    rcases Nat.lt_or_ge k i with c | c
    · rw [List.getElem?_eraseIdx_of_lt c] at hx; exact h.names k x hk hx
    · rw [List.getElem?_eraseIdx_of_ge c] at hx; exact h.names (k + 1) x (by omega) hx

theorem adoptInner_tidy (fi : Nat) (e : FEntry) (fb fsi : Nat) (s0 : St) : ∀ i k bm last s, Loop C s0 fi e s last → TLoop fsi e.node i s last →
    TLoop fsi e.node (fsi + 1) (adoptInner e.node fb i k bm last C s).2 (adoptInner e.node fb i k bm last C s).1.2 := by
  intro i
  induction i with
  | zero => intro k bm last s _ h; exact absurd h.lt (by omega)
  | succ i ih =>
    intro k bm last s hL h
    have hge := h.lt
    rw [adoptInner_eq]
    by_cases hs : s.stack.getD i 0 = e.node
    · rw [if_pos hs]; exact h.weaken (by omega) (by omega)
    · rw [if_neg hs]
      have hi : fsi < i := by
        rcases Nat.lt_or_ge fsi i with c | c
        · exact c
        · have : i = fsi := by omega
          subst this
          exact absurd (by rw [List.getD_eq_getElem?_getD, h.here]; rfl) hs
      cases hj : s.fmtByNode (s.stack.getD i 0) with
      | none =>
        simp only [bind_eq]
        have h1 : Does C (do markDirty; modS fun s => { s with stack := s.stack.eraseIdx i }) := by does
        have h2 := h1.out s
        have hmd : (markDirty C s).2.heap = s.heap ∧ (markDirty C s).2.stack = s.stack ∧ (markDirty C s).2.fixed = s.fixed ∧ (markDirty C s).2.fmt = s.fmt := by
          unfold markDirty modS; simp only; split <;> exact ⟨rfl, rfl, rfl, rfl⟩
        refine ih _ _ _ _ ⟨hL.steps.trans h2.chain, ?_, hL.last.same h2.same⟩ (h.erase hi (h2.tidy h.tidy) hmd.1 hmd.2.2.1 ?_)
        · show (markDirty C s).2.fmt[fi]? = _
          rw [hmd.2.2.2]; exact hL.entry
        · show (markDirty C s).2.stack.eraseIdx i = _
          rw [hmd.2.1]
      | some j =>
        simp only
        obtain ⟨e1, he1, hh⟩ := scanFmt_spec _ _ _ _ _ hj
        have hne : j ≠ fi := by
          intro hx
          subst hx
          have := fmtGet he1
          rw [hL.entry] at this
          simp only [Option.some.injEq] at this
          subst this
          simp only [Bool.and_eq_true, decide_eq_true_eq] at hh
          exact hs hh.2.symm
        have hent : ∀ x, (s.fmt.set j x)[fi]? = some (some e) := fun x => by rw [List.getElem?_set_ne hne]; exact hL.entry
        cases hg : s.fmt.getD j none with
        | none => exact h.weaken (by omega) (by omega)
        | some e2 =>
          simp only
          by_cases hk : k + 1 > 3
          · rw [if_pos hk]
            simp only [bind_eq]
            have h1 : Does C (do retireAt j; markDirty; modS fun s => { s with stack := s.stack.eraseIdx i }) := by does
            have h2 := h1.out s
            have hra : (retireAt j C s).2.heap = s.heap ∧ (retireAt j C s).2.stack = s.stack ∧ (retireAt j C s).2.fixed = s.fixed ∧ (retireAt j C s).2.fmt[fi]? = some (some e) := by
              unfold retireAt modS; simp only; split
              · refine ⟨rfl, rfl, rfl, ?_⟩
                have hlt : fi < s.fmt.length := (List.getElem?_eq_some_iff.1 hL.entry).1
                show s.fmt.dropLast[fi]? = _
                rw [List.dropLast_eq_take, List.getElem?_take_of_lt (by omega)]
                exact hL.entry
              · exact ⟨rfl, rfl, rfl, hent _⟩
            have hmd : (markDirty C (retireAt j C s).2).2.heap = s.heap ∧ (markDirty C (retireAt j C s).2).2.stack = s.stack ∧
                (markDirty C (retireAt j C s).2).2.fixed = s.fixed ∧ (markDirty C (retireAt j C s).2).2.fmt[fi]? = some (some e) := by
              unfold markDirty modS; simp only; split <;> exact hra
            refine ih _ _ _ _ ⟨hL.steps.trans h2.chain, ?_, hL.last.same h2.same⟩ (h.erase hi (h2.tidy h.tidy) hmd.1 hmd.2.2.1 ?_)
            · exact hmd.2.2.2
            · show (markDirty C (retireAt j C s).2).2.stack.eraseIdx i = _
              rw [hmd.2.1]
          · rw [if_neg hk]
            simp only [bind_eq]
            obtain ⟨c1, c2, c3⟩ := cloneEntry_does (C := C) e2 s (List.mem_of_getElem? (fmtGet hg))
            obtain ⟨d1, d2, d3⟩ := cloneEntry_tidy (C := C) e2 h.tidy
            obtain ⟨l, hl⟩ := cloneEntry_eq (C := C) e2 s
            have hname : ((cloneEntry e2 C s).2.n (cloneEntry e2 C s).1).name = e2.name := by
              rw [hl]; show ((s.add _).n s.heap.length).name = _; rw [n_add_eq]; rfl
            have hstk : (cloneEntry e2 C s).2.stack = s.stack := by rw [hl]; rfl
            have hfix : (cloneEntry e2 C s).2.fixed = s.fixed := by rw [hl]; rfl
            clear hl l
            generalize cloneEntry e2 C s = r at c1 c2 c3 d1 d2 d3 hname hstk hfix
            obtain ⟨node, u⟩ := r
            simp only at c1 c2 c3 d1 d2 d3 hname hstk hfix ⊢
            have s1 := setEntryNode_chain (C := C) j node u
            have m1 := c2.same s1.same
            have s2 := stackSet_chain (C := C) (setEntryNode j node C u).2 i node m1
            have ml := ((hL.last.same c1.same).same s1.same).same s2.same
            have s3 := appendMoved_chain (C := C) _ last node ml
            have hLoop : Loop C s0 fi e (({ (setEntryNode j node C u).2 with stack := (setEntryNode j node C u).2.stack.set i node } : St).detach last |>.appendMoved node last) node := by
              refine ⟨hL.steps.trans (c1.trans (s1.trans (s2.trans s3))), ?_, (m1.same s2.same).same s3.same⟩
              have hfmt : ∀ (t : St) (a b : Nat), ((t.detach a).appendMoved b a).fmt = t.fmt := by
                intro t a b
                unfold St.detach St.appendMoved St.linkLast St.upd
                split
                · rfl
                · split <;> rfl
              rw [hfmt]
              show ((setEntryNode j node C u).2).fmt[fi]? = _
              unfold setEntryNode modS
              simp only
              rw [c3]
              exact hent _
            refine ih _ _ _ _ hLoop ?_
            -- the tree
            have t1 : Tidy (setEntryNode j node C u).2 := setEntryNode_tidy j node d1 d2.notFixed
            have f1 : Fresh (setEntryNode j node C u).2 node := d2.core rfl
            have l1 : Loose (Live (setEntryNode j node C u).2) (setEntryNode j node C u).2 node := d3
            have hstk1 : (setEntryNode j node C u).2.stack = s.stack := hstk
            have hfix1 : (setEntryNode j node C u).2.fixed = s.fixed := hfix
            have hn1 : ∀ x, x < s.heap.length → ((setEntryNode j node C u).2.n x).name = (s.n x).name := fun x hx => (((c1.trans s1).same).2 x hx).2.1
            have hname1 : ((setEntryNode j node C u).2.n node).name = e2.name := hname
            generalize (setEntryNode j node C u).2 = v at *
            have hfe1 : v.stack[fsi]? = some e.node := by rw [hstk1]; exact h.here
            have hnf1 : ¬ Fixed v e.node := fun k => h.nf ((fixed_of hfix1 _).1 k)
            obtain ⟨jl, hjl, hlast⟩ := h.last
            have hilt : i < v.stack.length := by
              have := (List.getElem?_eq_some_iff.1 hlast).1
              rw [hstk1]; omega
            have t2 := t1.replace i v.stack[i] node (List.getElem?_eq_getElem hilt) f1 l1 fun k b hk hb => t1.later hfe1 hb (by omega) hnf1
            have e1 : ({ v with stack := v.stack.set i node } : St).stack[i]? = some node := by
              show (v.stack.set i node)[i]? = _
              rw [List.getElem?_set_self hilt]
            have e2' : ({ v with stack := v.stack.set i node } : St).stack[jl]? = some last := by
              show (v.stack.set i node)[jl]? = _
              rw [List.getElem?_set_ne (by omega), hstk1]; exact hlast
            have hnl : ¬ Fixed ({ v with stack := v.stack.set i node } : St) last := by
              have := t1.later hfe1 (hstk1 ▸ hlast) (by omega) hnf1
              exact this
            have t3 : Tidy ((({ v with stack := v.stack.set i node } : St).detach last).appendMoved node last) := by
              unfold St.appendMoved
              rw [linkLast_eq]
              exact t2.moveUnder e1 e2' (by omega) hnl ml.2 _ _ fun ht _ _ b hb ho => ht.slot hb ho
            have hfr : ((({ v with stack := v.stack.set i node } : St).detach last).appendMoved node last).stack = v.stack.set i node ∧
                ((({ v with stack := v.stack.set i node } : St).detach last).appendMoved node last).fixed = v.fixed ∧
                ((({ v with stack := v.stack.set i node } : St).detach last).appendMoved node last).heads = v.heads := by
              unfold St.appendMoved
              rw [linkLast_eq]
              exact moved_frame _ _ _ _
            show TLoop fsi e.node i ((({ v with stack := v.stack.set i node } : St).detach last).appendMoved node last) node
            refine ⟨t3, ?_, fun k => hnf1 ((fixed_of hfr.2.1 _).1 k), hi, ⟨i, Nat.le_refl _, ?_⟩, fun q x hq hx => ?_⟩
            · rw [hfr.1, List.getElem?_set_ne (by omega)]; exact hfe1
            · rw [hfr.1, List.getElem?_set_self hilt]
            · rw [(ns_of_heads hfr.2.2 x).2.2]
              rw [hfr.1] at hx
              by_cases hqi : i = q
              · subst hqi
                rw [List.getElem?_set_self hilt] at hx
                have : node = x := by simpa using hx
                subst this
                rw [hname1]
                have := (h.tidy.fmtn e2 (List.mem_of_getElem? (fmtGet hg))).2
                simpa using this
              · rw [List.getElem?_set_ne hqi, hstk1] at hx
                rw [hn1 x (h.tidy.stk x (List.mem_of_getElem? hx))]
                exact h.names q x hq hx

theorem skipPo_le (s : St) : ∀ i, skipPo s i ≤ i
  | 0 => Nat.le_refl _
  | i + 1 => by
    unfold skipPo
    split
    · exact Nat.le_succ_of_le (skipPo_le s i)
    · exact Nat.le_refl _

theorem commonAncestor_spec {s : St} {fsi x : Nat} (h : s.stack[fsi]? = some x) (h0 : 0 < fsi) : ∃ i, i < fsi ∧ s.stack[i]? = some (s.commonAncestor fsi) := by
  have hlt := (List.getElem?_eq_some_iff.1 h).1
  have key : ∀ i, i < fsi → s.stack[i]? = some (s.stack.getD i 0) := fun i hi => by
    rw [List.getD_eq_getElem?_getD, List.getElem?_eq_getElem (by omega)]; rfl
  unfold St.commonAncestor
  split
  · have := skipPo_le s (fsi - 2)
    exact ⟨_, by omega, key _ (by omega)⟩
  · exact ⟨_, by omega, key _ (by omega)⟩

theorem indexOf?_mem {l : List Nat} {x i : Nat} (h : indexOf? l x = some i) : l[i]? = some x := by
  unfold indexOf? at h
  rw [List.findIdx?_eq_some_iff_getElem] at h
  obtain ⟨hlt, hp, _⟩ := h
  rw [List.getElem?_eq_getElem hlt]
  simpa using hp

theorem of_ite_none {α : Type} {c : Prop} [Decidable c] {x : Option α} {v : α} (h : (if c then none else x) = some v) : ¬ c ∧ x = some v := by
  split at h
  · simp at h
  · next hc => exact ⟨hc, h⟩

theorem fosterFor_some {s : St} {parent : Nat} {tag : Option Str} {g i : Nat} (h : fosterFor parent tag C s = some (g, i)) :
    (∃ t, s.findOpen c%"table" = some t ∧ s.stack.getD t 0 ∈ (s.n g).children) ∨
    (∃ t, s.openTemplate = some t ∧ (s.n (s.stack.getD t 0)).kind = .template ∧ (s.n (s.stack.getD t 0)).content = some g) ∨
    parent ∈ (s.n g).children := by
  unfold fosterFor at h
  replace h := (of_ite_none h).2
  replace h := (of_ite_none h).2
  dsimp only at h
  replace h := (of_ite_none h).2
  · skip
    · generalize htbl : (if bothLt (s.findOpen c%"table") (if s.tmodes.isEmpty then none else s.openTemplate) then none else s.findOpen c%"table") = tbl at h
      cases tbl with
      | none =>
        simp only at h
        by_cases hte : s.tmodes.isEmpty = true
        · rw [if_pos hte] at h; simp at h
        · rw [if_neg hte] at h
          rw [if_neg hte] at h
          have hpar : (match (s.n parent).parent with | none => none | some g => (indexOf? (s.n g).children parent).map fun i => (g, i + 1)) = some (g, i) →
              parent ∈ (s.n g).children := by
            intro h
            split at h
            · simp at h
            · next g' _ =>
              rw [Option.map_eq_some_iff] at h
              obtain ⟨k, hk, hkk⟩ := h
              simp only [Prod.mk.injEq] at hkk
              rw [hkk.1] at hk
              exact List.mem_of_getElem? (indexOf?_mem hk)
          cases ht : s.openTemplate with
          | none => rw [ht] at h; exact .inr (.inr (hpar h))
          | some t =>
            rw [ht] at h
            simp only at h
            by_cases hk : (s.n (s.stack.getD t 0)).kind = .template
            · rw [if_pos hk] at h
              cases hc : (s.n (s.stack.getD t 0)).content with
              | none => rw [hc] at h; exact .inr (.inr (hpar h))
              | some c =>
                rw [hc] at h
                simp only [Option.some.injEq, Prod.mk.injEq] at h
                exact .inr (.inl ⟨t, rfl, hk, by rw [hc, h.1]⟩)
            · rw [if_neg hk] at h; exact .inr (.inr (hpar h))
      | some t =>
        left
        have hft : s.findOpen c%"table" = some t := (of_ite_none htbl).2
        simp only at h
        split at h
        · simp at h
        · next g' _ =>
          rw [Option.map_eq_some_iff] at h
          obtain ⟨k, hk, hkk⟩ := h
          simp only [Prod.mk.injEq] at hkk
          rw [hkk.1] at hk
          exact ⟨t, hft, List.mem_of_getElem? (indexOf?_mem hk)⟩

theorem placeLast_tidy (fsi fe last : Nat) (s : St) (h : TLoop fsi fe (fsi + 1) s last) (h0 : 0 < fsi) (hm : Movable s last) :
    Tidy (placeLast fsi last C s).2 ∧ (placeLast fsi last C s).2.stack = s.stack ∧ (placeLast fsi last C s).2.fixed = s.fixed ∧ (placeLast fsi last C s).2.heads = s.heads := by
  obtain ⟨ia, hia, hanc⟩ := commonAncestor_spec h.here h0
  obtain ⟨j, hj, hlast⟩ := h.last
  have hnl : ¬ Fixed s last := h.tidy.later h.here hlast (by omega) h.nf
  have hst : (s.detach last).stack = s.stack := by obtain ⟨k, hk⟩ := detach_frame s last; rw [hk]
  unfold placeLast
  simp only [bind_eq, modS, q]
  split
  · next hfo =>
    unfold St.appendMoved
    rw [linkLast_eq]
    exact ⟨h.tidy.moveUnder hanc hlast (by omega) hnl hm.2 _ _ fun ht _ _ b hb ho => ht.slot hb ho, moved_frame _ _ _ _⟩
  · next g pos hfo =>
    unfold St.insertMoved
    -- an open element below which the place is
    have hx : ∃ i x, i < j ∧ s.stack[i]? = some x ∧ (x ∈ ((s.detach last).n g).children ∨ (((s.detach last).n x).kind = .template ∧ ((s.detach last).n x).content = some g)) := by
      have hname : ∀ k x, fsi < k → (s.detach last).stack[k]? = some x → ((s.detach last).n x).name ≠ c%"table" ∧ ((s.detach last).n x).name ≠ c%"template" := fun k x hk hx => by
        rw [(ns_of_heads (heads_detach s last) x).2.2]; exact h.names k x hk (hst ▸ hx)
      rcases fosterFor_some hfo with ⟨t, ht, hin⟩ | ⟨t, ht, hin⟩ | hin
      · obtain ⟨k1, k2, k3⟩ := lastIdx_spec ht
        refine ⟨t, _, ?_, hst ▸ k1, .inl hin⟩
        rcases Nat.lt_or_ge fsi t with c | c
        · exact absurd (by simpa using k3) (hname t _ c k1).1
        · omega
      · obtain ⟨k1, k2, k3⟩ := lastIdx_spec ht
        refine ⟨t, _, ?_, hst ▸ k1, .inr hin⟩
        rcases Nat.lt_or_ge fsi t with c | c
        · refine absurd ?_ (hname t _ c k1).2
          unfold isTemplateBoundary at k3
          simp only [Bool.and_eq_true, decide_eq_true_eq] at k3
          exact k3.1
        · omega
      · exact ⟨ia, _, by omega, hanc, .inl hin⟩
    obtain ⟨i, x, hij, hix, hor⟩ := hx
    refine ⟨h.tidy.moveUnder hix hlast hij hnl hm.2 _ _ fun ht hlt hlive b hb ho => ?_, moved_frame _ _ _ _⟩
    rcases hor with hin | ⟨hk, hc⟩
    · have hg : Live (s.detach last) g := by
        unfold St.slot at hlive
        split at hlive
        · cases hc : ((s.detach last).n g).content with
          | none => rw [hc] at hlive; exact hlive
          | some c => exact .inl (ht.cont g c hc).2.2.1
        · exact hlive
      exact .tail (ht.slot hb ho) ⟨hg, .inl hin⟩
    · have hs : (s.detach last).slot x = g := by unfold St.slot; rw [if_pos hk, hc]; rfl
      have := ht.slot hb ho
      rw [← hs] at this
      exact ht.slot hb this

theorem adoptBody_does (fi : Nat) (e : FEntry) (fsi fbi : Nat) (s : St) (he : s.fmt[fi]? = some (some e)) (hb : Movable s (s.stack.getD fbi 0))
    (hfe : s.stack[fsi]? = some e.node) (h0 : 0 < fsi) (hlt : fsi < fbi) (hfb' : s.stack[fbi]? = some (s.stack.getD fbi 0))
    (hnames : ∀ k x, fsi < k → s.stack[k]? = some x → (s.n x).name ≠ c%"table" ∧ (s.n x).name ≠ c%"template") :
    Steps C s (adoptBody fi e fsi fbi C s).2 := by
  unfold adoptBody
  simp only [bind_eq]
  generalize hfb : (q (fun _ s => s.stack.getD fbi 0) C s) = qq
  have hq1 : qq.1 = s.stack.getD fbi 0 := by rw [← hfb]; rfl
  have hq2 : qq.2 = s := by rw [← hfb]; rfl
  rw [hq2]
  rw [← hq1] at hb hfb'
  generalize qq.1 = fb at hb hfb' ⊢
  have hl0 : Loop C s fi e s fb := ⟨.refl, he, hb⟩
  have h1 := adoptInner_does (C := C) fi e fb s fbi 0 (fi + 1) fb s hl0
  have k1 : Tidy s → _ := fun k => adoptInner_tidy (C := C) fi e fb fsi s fbi 0 (fi + 1) fb s hl0
    ⟨k, hfe, (k.fmtn e (List.mem_of_getElem? he)).1, hlt, ⟨fbi, Nat.le_refl _, hfb'⟩, hnames⟩
  have n1 : Tidy s → ¬ Fixed s fb := fun k => k.later hfe hfb' hlt (k.fmtn e (List.mem_of_getElem? he)).1
  generalize adoptInner e.node fb fbi 0 (fi + 1) fb C s = r at h1 k1
  obtain ⟨⟨bm, last⟩, t⟩ := r
  simp only at h1 k1 ⊢
  obtain ⟨h2, h2f⟩ := placeLast_chain (C := C) fsi last t h1.last
  have k2 : Tidy s → _ := fun k => placeLast_tidy (C := C) fsi e.node last t (k1 k) h0 h1.last
  generalize (placeLast fsi last C t).2 = t2 at h2 h2f k2
  have hb2 : Movable t2 fb := (hb.same h1.steps.same).same h2.same
  have n2 : Tidy s → ¬ Fixed t2 fb := fun k x => n1 k ((fixed_of (h1.steps.trans h2).fixed fb).1 x)
  have he2 : some e ∈ t2.fmt := by rw [h2f]; exact List.mem_of_getElem? h1.entry
  obtain ⟨h3, h3m, h3f⟩ := wrap_chain (C := C) e fb t2 he2 hb2
  show Steps C s (refreshDirty C _).2
  simp only [modS]
  -- the tree
  have k3 : Tidy s → Tidy (((cloneEntry e C t2).2.moveChildren fb (cloneEntry e C t2).1).appendMoved fb (cloneEntry e C t2).1) ∧
      (cloneEntry e C t2).1 ∈ ((((cloneEntry e C t2).2.moveChildren fb (cloneEntry e C t2).1).appendMoved fb (cloneEntry e C t2).1).n
        ((((cloneEntry e C t2).2.moveChildren fb (cloneEntry e C t2).1).appendMoved fb (cloneEntry e C t2).1).slot fb)).children ∧
      ¬ Fixed (((cloneEntry e C t2).2.moveChildren fb (cloneEntry e C t2).1).appendMoved fb (cloneEntry e C t2).1) (cloneEntry e C t2).1 ∧
      ¬ Fixed (((cloneEntry e C t2).2.moveChildren fb (cloneEntry e C t2).1).appendMoved fb (cloneEntry e C t2).1) fb ∧
      ((((cloneEntry e C t2).2.moveChildren fb (cloneEntry e C t2).1).appendMoved fb (cloneEntry e C t2).1).n (cloneEntry e C t2).1).kind ≠ .fragment ∧
      (cloneEntry e C t2).1 ∉ (((cloneEntry e C t2).2.moveChildren fb (cloneEntry e C t2).1).appendMoved fb (cloneEntry e C t2).1).stack := by
    intro k
    obtain ⟨d1, d2, d3⟩ := cloneEntry_tidy (C := C) e (k2 k).1
    obtain ⟨l, hl⟩ := cloneEntry_eq (C := C) e t2
    have hbt : t2.heap.length ≠ fb := by have := hb2.1; omega
    rw [hl] at d1 d2 d3 ⊢
    simp only at d1 d2 d3 ⊢
    have hn := n_add_eq t2 (elementNode e.name e.attrs (some c%"html"))
    have hbm : Movable ({ t2.add (elementNode e.name e.attrs (some c%"html")) with toUnwrap := l } : St) fb :=
      ⟨by show fb < (t2.add _).heap.length; rw [len_add]; have := hb2.1; omega, by show ((t2.add _).n fb).ns ≠ poNs; rw [n_add_lt _ _ hb2.1]; exact hb2.2⟩
    have hmk : (({ t2.add (elementNode e.name e.attrs (some c%"html")) with toUnwrap := l } : St).n t2.heap.length) = elementNode e.name e.attrs (some c%"html") := hn
    have hvf : ¬ Fixed ({ t2.add (elementNode e.name e.attrs (some c%"html")) with toUnwrap := l } : St) fb := n2 k
    generalize ({ t2.add (elementNode e.name e.attrs (some c%"html")) with toUnwrap := l } : St) = v at *
    have hb3 : ¬ Fixed v fb := hvf
    obtain ⟨w1, w2⟩ := d1.wrap fb t2.heap.length hbm.1 hbm.2 hb3 (by rw [hmk]; rfl) d2 (by rw [hmk]; rfl) (by rw [hmk]; rfl) d3 hbt
    have hh : ((v.moveChildren fb t2.heap.length).appendMoved fb t2.heap.length).heads = v.heads := (heads_linkLast _ _ _).trans (heads_moveChildren _ _ _)
    have hfx : ((v.moveChildren fb t2.heap.length).appendMoved fb t2.heap.length).fixed = v.fixed :=
      foldl_frame (f := fun s c => s.appendMoved t2.heap.length c) St.fixed (fun _ _ => rfl) _ _
    have hsx : ((v.moveChildren fb t2.heap.length).appendMoved fb t2.heap.length).stack = v.stack :=
      foldl_frame (f := fun s c => s.appendMoved t2.heap.length c) St.stack (fun _ _ => rfl) _ _
    have hcx : ∀ i, (((v.moveChildren fb t2.heap.length).appendMoved fb t2.heap.length).n i).content = (v.n i).content := fun i =>
      (content_linkLast _ _ _ _).trans ((content_foldl (f := fun s c => s.appendMoved t2.heap.length c) (fun s c j => content_linkLast _ _ _ _) _ _ _).trans (content_upd _ _ _ _ fun _ => rfl))
    refine ⟨w1, ?_, fun k => d2.notFixed ((fixed_of hfx _).1 k), fun k => hb3 ((fixed_of hfx _).1 k), ?_, ?_⟩
    · rw [slot_congr hh hcx]
      rcases w2.2 with w | w
      · exact w
      · have := (w1.cont _ _ w).2.2.2.1
        rw [(ns_of_heads hh _).2.1, hmk] at this
        exact absurd this (by simp [elementNode])
    · rw [(ns_of_heads hh _).2.1, hmk]; simp [elementNode]
    · rw [hsx]; exact fun k => Nat.lt_irrefl _ (d2.stk _ k)
  have h3e : some e ∈ (((cloneEntry e C t2).2.moveChildren fb (cloneEntry e C t2).1).appendMoved fb (cloneEntry e C t2).1).fmt := by rw [h3f]; exact he2
  have hb4 := hb2.same h3.same
  generalize hw : ((cloneEntry e C t2).2.moveChildren fb (cloneEntry e C t2).1).appendMoved fb (cloneEntry e C t2).1 = t3 at h3 h3m h3f k3 h3e hb4 ⊢
  generalize (cloneEntry e C t2).1 = node at h3m k3 ⊢
  obtain ⟨h4, k4⟩ := replaceEntry_steps (C := C) e node bm t3 h3e
  have hr4 : (replaceEntry e node bm C t3).2.heap = t3.heap ∧ (replaceEntry e node bm C t3).2.stack = t3.stack := by
    have : (retire e.eid C t3).2.heap = t3.heap ∧ (retire e.eid C t3).2.stack = t3.stack := by
      unfold retire modS
      simp only
      split <;> exact ⟨rfl, rfl⟩
    exact this
  generalize (replaceEntry e node bm C t3).2 = t4 at h4 k4 hr4 ⊢
  have h5 := (inferInstance : Does C (do markDirty; modS fun s => { s with stack := s.stack.erase e.node })).out t4
  simp only [bind_eq, modS] at h5 ⊢
  have hm5 := (h3m.same h4.same).same h5.same
  have hb5 := (hb4.same h4.same).same h5.same
  have h6 := insertAfter_chain (C := C) ({ (markDirty C t4).2 with stack := (markDirty C t4).2.stack.erase e.node } : St) fb node hm5
  have h7 := fun t => (inferInstance : Does C refreshDirty).out t
  refine Steps.trans ⟨h1.steps.trans (h2.trans (h3.trans (h4.trans (h5.chain.trans h6)))), fun k => ?_⟩ (h7 _)
  obtain ⟨a1, a2, a3, a4, a5, a6⟩ := k3 k
  have b1 := h5.tidy (k4 a1 a3)
  have hheap : ({ (markDirty C t4).2 with stack := (markDirty C t4).2.stack.erase e.node } : St).heap = t3.heap := by
    rw [← hr4.1]; show (markDirty C t4).2.heap = _; unfold markDirty modS; simp only; split <;> rfl
  have hstk : ({ (markDirty C t4).2 with stack := (markDirty C t4).2.stack.erase e.node } : St).stack = t3.stack.erase e.node := by
    rw [← hr4.2]; show (markDirty C t4).2.stack.erase e.node = _
    have : (markDirty C t4).2.stack = t4.stack := by unfold markDirty modS; simp only; split <;> rfl
    rw [this]
  have hfx := h4.fixed
  have hfx5 := h5.fixed
  generalize ({ (markDirty C t4).2 with stack := (markDirty C t4).2.stack.erase e.node } : St) = t5 at *
  have hn5 : ∀ i, t5.n i = t3.n i := fun i => by unfold St.n; rw [hheap]
  cases hix : indexOf? t5.stack fb with
  | none => exact b1
  | some i =>
    have hsl : t5.slot fb = t3.slot fb := slot_congr (heads_of hheap) (fun i => by rw [hn5]) fb
    refine b1.insertAfter i fb node (indexOf?_mem hix) (fun x => a4 ((fixed_of (hfx5.trans hfx) _).1 x)) hm5.1 hm5.2 (by rw [hn5]; exact a5)
      (fun x => a3 ((fixed_of (hfx5.trans hfx) _).1 x)) ⟨?_, .inl ?_⟩ ?_
    · left
      unfold St.slot
      split
      · cases hc : (t5.n fb).content with
        | none => exact hb5.2
        | some c => exact (b1.cont _ _ hc).2.1
      · exact hb5.2
    · rw [hsl, hn5]; exact a2
    · rw [hstk]; exact fun x => a6 (List.mem_of_mem_erase x)

theorem furthest_idx {s : St} {fsi fbi : Nat} (h : s.furthest fsi = some fbi) : fsi < fbi ∧ s.stack[fbi]? = some (s.stack.getD fbi 0) := by
  unfold St.furthest at h
  rw [Option.map_eq_some_iff] at h
  obtain ⟨k, hk, hkf⟩ := h
  obtain ⟨hlt, _⟩ := findIdx?_getD hk
  rw [List.length_drop] at hlt
  refine ⟨by omega, ?_⟩
  rw [List.getD_eq_getElem?_getD, List.getElem?_eq_getElem (by omega)]; rfl

/-- No table or template above a node in scope. -/
theorem scope_names {s : St} {x fsi : Nat} (h : indexOf? s.stack x = some fsi) (hs : s.nodeInScope x defaultScope = true) :
    0 < fsi ∧ ∀ k y, fsi < k → s.stack[k]? = some y → (s.n y).name ≠ c%"table" ∧ (s.n y).name ≠ c%"template" := by
  unfold St.nodeInScope at hs
  rw [h] at hs
  cases fsi with
  | zero => simp at hs
  | succ f =>
    refine ⟨by omega, fun k y hk hy => ?_⟩
    simp only at hs
    have hlt := (List.getElem?_eq_some_iff.1 hy).1
    have := scanDownFrom_last (fun i => defaultScope.contains (s.n i).name) s.stack (s.stack.length - 1) k (by omega) (by
      change (match scanDownFrom (fun i => defaultScope.contains (s.n i).name) s.stack (s.stack.length - 1) with | none => true | some b => decide (b ≤ f + 1)) = true at hs
      cases hsc : scanDownFrom (fun i => defaultScope.contains (s.n i).name) s.stack (s.stack.length - 1) with
      | none => exact .inl rfl
      | some b =>
        rw [hsc] at hs
        simp only [decide_eq_true_eq] at hs
        exact .inr ⟨b, rfl, by omega⟩) (by omega)
    rw [List.getD_eq_getElem?_getD, hy] at this
    simp only [Option.getD_some] at this
    constructor
    · intro e; rw [e] at this; exact absurd this (by decide)
    · intro e; rw [e] at this; exact absurd this (by decide)

instance (subject : Str) : Does C (adoptOnce subject) := by
  refine ⟨fun s => ?_⟩
  show Steps C s ((match s.fmtFind subject with
    | none => do
      whQ (fun _ s => s.topName = subject) (closeUntil subject)
      pure false
    | some fi =>
      match s.fmt.getD fi none with
      | none => pure false
      | some e =>
        if s.top = e.node then do
          modS St.pop
          retire e.eid
          pure false
        else
          match indexOf? s.stack e.node with
          | none => do
            retire e.eid
            refreshDirty
            pure false
          | some fsi =>
            if !s.nodeInScope e.node defaultScope then pure false
            else
              match s.furthest fsi with
              | none => do
                cutAt fsi
                retire e.eid
                refreshDirty
                pure false
              | some fbi => do
                adoptBody fi e fsi fbi
                pure true : EM Bool) C s).2
  cases s.fmtFind subject with
  | none => exact does_steps (m := do whQ (fun _ s => s.topName = subject) (closeUntil subject); pure false) (by does) s
  | some fi =>
    simp only
    cases he : s.fmt.getD fi none with
    | none => exact .refl
    | some e =>
      simp only
      by_cases ht : s.top = e.node
      · rw [if_pos ht]; exact does_steps (m := do modS St.pop; retire e.eid; pure false) (by does) s
      · rw [if_neg ht]
        cases hfs : indexOf? s.stack e.node with
        | none => exact does_steps (m := do retire e.eid; refreshDirty; pure false) (by does) s
        | some fsi =>
          simp only
          by_cases hs : (!s.nodeInScope e.node defaultScope) = true
          · rw [if_pos hs]; exact .refl
          · rw [if_neg hs]
            cases hfb : s.furthest fsi with
            | none => exact does_steps (m := do cutAt fsi; retire e.eid; refreshDirty; pure false) (by does) s
            | some fbi =>
              obtain ⟨f1, f2⟩ := furthest_idx hfb
              obtain ⟨g1, g2⟩ := scope_names hfs (by simpa using hs)
              exact adoptBody_does fi e fsi fbi s (fmtGet he) (furthest_spec hfb) (indexOf?_mem hfs) g1 f1 f2 g2

instance (subject : Str) (n : Nat) : Does C (adoptLoop subject n) := by
  induction n with
  | zero => unfold adoptLoop; does
  | succ n ih => unfold adoptLoop; does

instance (subject : Str) : Does C (adoption subject) := by unfold adoption; does

end

end JH.Eng
