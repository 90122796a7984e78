import Verif.Lemmas.DomTree
/-! Calls: the invariant, and what they leave alone. -/
namespace JH

theorem inv_empty : Inv {} := by
  refine ⟨⟨?_, ?_, ?_, ?_, ?_, ?_, ?_, ?_, ?_⟩, ⟨?_, ?_, ?_, ?_, ?_⟩⟩
  · intro p c h; cases h
  · intro p; exact List.nodup_nil
  · intro c p h; cases h
  · intro n; exact .root rfl
  · exact ⟨fun _ => 0, by intro n p h; cases h⟩
  · intro p c h; cases h
  · intro t f h; cases h
  · intro n _; rfl
  · intro n _; rfl
  · intro n; rfl
  · intro n; rfl
  · intro n d h; cases h
  · intro n m d h; cases h
  · intro t h; cases h

/-- The parts of a call that rearranges nodes. -/
structure Rearr (h h' : Heap) : Prop where
  inv : Inv h'
  skin : ∀ n, { h'.obj n with parent := none, children := none } = { h.obj n with parent := none, children := none }
  next : h'.next = h.next
  dict : h'.dict = h.dict ∧ h'.nextDict = h.nextDict
  some : ∀ n, (h'.obj n).children.isSome = (h.obj n).children.isSome

theorem rearr_refl {h : Heap} (i : Inv h) : Rearr h h := ⟨i, fun _ => rfl, rfl, ⟨rfl, rfl⟩, fun _ => rfl⟩

theorem rearr_trans {h h1 h2 : Heap} (a : Rearr h h1) (b : Rearr h1 h2) : Rearr h h2 :=
  ⟨b.inv, fun n => (b.skin n).trans (a.skin n), b.next.trans a.next, ⟨b.dict.1.trans a.dict.1, b.dict.2.trans a.dict.2⟩, fun n => (b.some n).trans (a.some n)⟩

theorem placed_rearr {h h' : Heap} {s node : Nat} {a b : List Nat} (i : Inv h) (w : WF h') (p : Placed h h' s node a b) : Rearr h h' :=
  ⟨⟨w, i.shape.of_skin p.skin p.some p.dict.2⟩, p.skin, p.next, p.dict, p.some⟩

theorem spliced_rearr {h h' : Heap} {s node : Nat} {a b : List Nat} (i : Inv h) (w : WF h') (p : Spliced h h' s node a b) : Rearr h h' :=
  ⟨⟨w, i.shape.of_skin p.skin p.some p.dict.2⟩, p.skin, p.next, p.dict, p.some⟩

theorem detached_rearr {h h' : Heap} {node : Nat} (i : Inv h) (w : WF h') (p : Detached h h' node) : Rearr h h' :=
  ⟨⟨w, i.shape.of_skin p.skin p.some p.dict.2⟩, p.skin, p.next, p.dict, p.some⟩

theorem frag_some {h : Heap} (i : Inv h) : ∀ n, n < h.next → h.knd n = .fragment → (h.obj n).children.isSome = true := by
  intro n _ hk; rw [i.shape.cls, hk]; rfl

/-- Sets of nodes with no pointer in or out. -/
structure Iso (h : Heap) (S : Nat → Prop) : Prop where
  par : ∀ n m, h.par n = some m → (S n ↔ S m)
  cont : ∀ t f, h.cont t = some f → (S t ↔ S f)
  lt : ∀ n, S n → n < h.next

/-- Nothing in `S` changes. -/
structure Framed (h h' : Heap) (S : Nat → Prop) : Prop where
  obj : ∀ n, S n → h'.obj n = h.obj n
  dict : ∀ n d, S n → (h.obj n).attrs = some d → h'.dict d = h.dict d
  iso : Iso h' S

theorem framed_refl {h : Heap} {S : Nat → Prop} (s : Iso h S) : Framed h h S := ⟨fun _ _ => rfl, fun _ _ _ _ => rfl, s⟩

theorem framed_trans {h h1 h2 : Heap} {S : Nat → Prop} (a : Framed h h1 S) (b : Framed h1 h2 S) : Framed h h2 S := by
  refine ⟨fun n hn => (b.obj n hn).trans (a.obj n hn), ?_, b.iso⟩
  intro n d hn hd
  rw [b.dict n d hn (by rw [a.obj n hn]; exact hd), a.dict n d hn hd]

theorem placed_framed {h h' : Heap} {s node : Nat} {a b : List Nat} {S : Nat → Prop} (o : Iso h S) (p : Placed h h' s node a b) (hs : ¬ S s) (hn : ¬ S node) :
    Framed h h' S := by
  refine ⟨?_, fun n d _ _ => by rw [p.dict.1], ⟨?_, ?_, ?_⟩⟩
  · intro n hS
    apply p.rest
    · rintro rfl; exact hs hS
    · rintro rfl; exact hn hS
    · intro hp; exact hn ((o.par node n hp).2 hS)
  · intro n m hp
    rw [p.par] at hp
    split at hp
    · rename_i e
      injection hp with hp
      subst hp; subst e
      exact ⟨fun h => absurd h hn, fun h => absurd h hs⟩
    · exact o.par n m hp
  · intro t f hc
    unfold Heap.cont at hc
    rw [(skin_knd (p.skin t)).2.1] at hc
    exact o.cont t f hc
  · intro n hS; rw [p.next]; exact o.lt n hS

theorem spliced_framed {h h' : Heap} {s node : Nat} {a b : List Nat} {S : Nat → Prop} (w : WF h) (o : Iso h S) (p : Spliced h h' s node a b) (hs : ¬ S s)
    (hn : ¬ S node) : Framed h h' S := by
  have hk : ∀ n, n ∈ h.kids node → ¬ S n := fun n hm hS => hn ((o.par n node (w.back node n hm)).1 hS)
  refine ⟨?_, fun n d _ _ => by rw [p.dict.1], ⟨?_, ?_, ?_⟩⟩
  · intro n hS
    apply p.rest
    · rintro rfl; exact hs hS
    · rintro rfl; exact hn hS
    · intro hm; exact hk n hm hS
    · intro hp; exact hn ((o.par node n hp).2 hS)
  · intro n m hp
    rw [p.par] at hp
    split at hp
    · rename_i e
      injection hp with hp
      subst hp
      exact ⟨fun h => absurd h (hk n e), fun h => absurd h hs⟩
    · split at hp
      · cases hp
      · exact o.par n m hp
  · intro t f hc
    unfold Heap.cont at hc
    rw [(skin_knd (p.skin t)).2.1] at hc
    exact o.cont t f hc
  · intro n hS; rw [p.next]; exact o.lt n hS

theorem detached_framed {h h' : Heap} {node : Nat} {S : Nat → Prop} (o : Iso h S) (p : Detached h h' node) (hn : ¬ S node) : Framed h h' S := by
  refine ⟨?_, fun n d _ _ => by rw [p.dict.1], ⟨?_, ?_, ?_⟩⟩
  · intro n hS
    apply p.rest
    · rintro rfl; exact hn hS
    · intro hp; exact hn ((o.par node n hp).2 hS)
  · intro n m hp
    rw [p.par] at hp
    split at hp
    · cases hp
    · exact o.par n m hp
  · intro t f hc
    rw [p.cont] at hc
    exact o.cont t f hc
  · intro n hS; rw [p.next]; exact o.lt n hS

theorem grow_framed {h h' : Heap} {S : Nat → Prop} (i : Inv h) (w' : WF h') (g : Grow h h' (fun _ => False)) (o : Iso h S) : Framed h h' S := by
  have hob : ∀ n, n < h.next → h'.obj n = h.obj n := fun n hn => g.old n hn (fun h => h)
  have hnew : ∀ n, h.next ≤ n → ¬ S n := fun n hn hS => by have := o.lt n hS; omega
  refine ⟨fun n hS => hob n (o.lt n hS), fun n d hS hd => g.dict d (i.shape.dlt n d hd), ⟨?_, ?_, ?_⟩⟩
  · intro n m hp
    rcases Nat.lt_or_ge n h.next with h1 | h1
    · unfold Heap.par at hp; rw [hob n h1] at hp; exact o.par n m hp
    · rcases Nat.lt_or_ge m h.next with h2 | h2
      · exfalso
        rcases w'.up n m hp with h3 | h3
        · unfold Heap.kids at h3; rw [hob m h2] at h3
          have := (i.wf.kid_lt (p := m) h3).2; omega
        · unfold Heap.cont at h3; rw [hob m h2] at h3
          have := (i.wf.cont_lt (t := m) h3).2; omega
      · exact ⟨fun h => absurd h (hnew n h1), fun h => absurd h (hnew m h2)⟩
  · intro t f hc
    rcases Nat.lt_or_ge t h.next with h1 | h1
    · unfold Heap.cont at hc; rw [hob t h1] at hc; exact o.cont t f hc
    · rcases Nat.lt_or_ge f h.next with h2 | h2
      · have h3 := (i.wf.cont_lt (g.cont t f h2 hc)).1
        omega
      · exact ⟨fun h => absurd h (hnew t h1), fun h => absurd h (hnew f h2)⟩
  · intro n hS; exact Nat.lt_of_lt_of_le (o.lt n hS) g.le

theorem placed_host {h h' : Heap} {s node : Nat} {a b : List Nat} (w : WF h) (p : Placed h h' s node a b) (hf : h.knd node ≠ .fragment) (hh : Host h) : Host h' := by
  intro t f hc
  unfold Heap.cont at hc
  rw [(skin_knd (p.skin t)).2.1] at hc
  rw [p.par, if_neg]
  · exact hh t f hc
  · rintro rfl; exact hf (w.tpl t _ hc).2

theorem spliced_host {h h' : Heap} {s node : Nat} {a b : List Nat} (w : WF h) (p : Spliced h h' s node a b) (hf : ∀ t, h.cont t ≠ some node) (hh : Host h) : Host h' := by
  intro t f hc
  unfold Heap.cont at hc
  rw [(skin_knd (p.skin t)).2.1] at hc
  rw [p.par, if_neg, if_neg]
  · exact hh t f hc
  · rintro rfl; exact hf t hc
  · intro hm; exact w.nofrag node f hm (w.tpl t _ hc).2

theorem detached_host {h h' : Heap} {node : Nat} (w : WF h) (p : Detached h h' node) (hf : h.knd node ≠ .fragment) (hh : Host h) : Host h' := by
  intro t f hc
  rw [p.cont] at hc
  rw [p.par, if_neg]
  · exact hh t f hc
  · rintro rfl; exact hf (w.tpl t _ hc).2

/-- What holds of a call. -/
structure StepOk (h h' : Heap) (op : DomOp) (r : Option Unit) : Prop where
  inv : Inv h'
  raise : r = none → h' = h
  framed : ∀ S, Iso h S → (∀ n ∈ op.operands, ¬ S n) → Framed h h' S
  host : Spec.Tidy h op → Host h → Host h'
  next : h.next ≤ h'.next

theorem same_step {h : Heap} (i : Inv h) (op : DomOp) (r : Option Unit) : StepOk h h op r :=
  ⟨i, fun _ => rfl, fun _ o _ => framed_refl o, fun _ hh => hh, Nat.le_refl _⟩

theorem place_step {h h' : Heap} {s node : Nat} {a b : List Nat} (i : Inv h) (w : WF h') (hf : h.knd node ≠ .fragment) (p : Placed h h' s node a b)
    {op : DomOp} (ho : s ∈ op.operands ∧ node ∈ op.operands) : StepOk h h' op (some ()) := by
  refine ⟨(placed_rearr i w p).inv, nofun, ?_, fun _ hh => placed_host i.wf p hf hh, Nat.le_of_eq p.next.symm⟩
  intro S o hS
  exact placed_framed o p (hS _ ho.1) (hS _ ho.2)

theorem splice_step {h h' : Heap} {s node : Nat} {a b : List Nat} (i : Inv h) (w : WF h') (p : Spliced h h' s node a b)
    {op : DomOp} (ho : s ∈ op.operands ∧ node ∈ op.operands) (hp : Spec.placed op = some node) : StepOk h h' op (some ()) := by
  refine ⟨(spliced_rearr i w p).inv, nofun, ?_, fun ht hh => spliced_host i.wf p (fun t => ht node t hp) hh, Nat.le_of_eq p.next.symm⟩
  intro S o hS
  exact spliced_framed i.wf o p (hS _ ho.1) (hS _ ho.2)

theorem detach_step {h h1 h' : Heap} {node : Nat} {op : DomOp} (st : StepOk h h1 op (some ())) (w : WF h') (p : Detached h1 h' node)
    (ho : node ∈ op.operands) (hk : h1.knd node ≠ .fragment) : StepOk h h' op (some ()) := by
  refine ⟨(detached_rearr st.inv w p).inv, nofun, ?_, fun ht hh => detached_host st.inv.wf p hk (st.host ht hh), by rw [p.next]; exact st.next⟩
  intro S o hS
  have f := st.framed S o hS
  exact framed_trans f (detached_framed f.iso p (hS _ ho))

theorem append_step {fuel : Nat} {h h' : Heap} {self node : Nat} {r : Option Unit} (i : Inv h) (hs : self < h.next) (hn : node < h.next)
    (he : h.append fuel self node = some (h', r)) {op : DomOp} (ho : self ∈ op.operands ∧ node ∈ op.operands) (hp : Spec.placed op = some node) :
    StepOk h h' op r := by
  rcases append_ok (fuel := fuel) i.wf (frag_some i) hs hn with h1 | h1 | ⟨h1, -⟩ | ⟨h2, h1, w, -, ⟨h3, -, p⟩ | ⟨-, -, p⟩⟩
  · rw [h1] at he; cases he
  · rw [h1] at he; cases he; exact same_step i _ _
  · rw [h1] at he; cases he; exact same_step i _ _
  · rw [h1] at he; cases he; exact place_step i w h3 p ho
  · rw [h1] at he; cases he; exact splice_step i w p ho hp

theorem step_ok {fuel : Nat} {h h' : Heap} {op : DomOp} {r : Option Unit} (i : Inv h) (hv : ∀ n ∈ op.operands, n < h.next)
    (he : h.step fuel op = some (h', r)) : StepOk h h' op r := by
  cases op with
  | create k name ns data attrs =>
    simp only [Heap.step, Option.some.injEq, Prod.mk.injEq] at he
    obtain ⟨rfl, rfl⟩ := he
    have n := create_new h k name ns data attrs
    have g := new_grow i.wf n (fun _ => False)
    have w := new_wf i.wf n
    exact ⟨⟨w, new_shape i.wf i.shape n⟩, nofun, fun S o _ => grow_framed i w g o, fun _ hh => g.host hh, g.le⟩
  | append self node =>
    exact append_step i (hv self (by simp [DomOp.operands])) (hv node (by simp [DomOp.operands])) he (by simp [DomOp.operands]) rfl
  | insertBefore self node ref =>
    have hs := hv self (by simp [DomOp.operands])
    have hn := hv node (by simp [DomOp.operands])
    simp only [Heap.step] at he
    cases ref with
    | none =>
      unfold Heap.insertBefore at he
      split at he
      · cases he; exact same_step i _ _
      · exact append_step i hs hn he (by simp [DomOp.operands]) rfl
      · rename_i e; cases e
    | some x =>
      rcases insertBefore_ok (fuel := fuel) (r := x) i.wf (frag_some i) hs hn with h1 | h1 | ⟨h1, -⟩ | ⟨h2, a, b, h1, w, -, -, ⟨h3, -, p⟩ | ⟨-, -, p⟩⟩
      · rw [h1] at he; cases he
      · rw [h1] at he; cases he; exact same_step i _ _
      · rw [h1] at he; cases he; exact same_step i _ _
      · rw [h1] at he; cases he; exact place_step i w h3 p (by simp [DomOp.operands])
      · rw [h1] at he; cases he; exact splice_step i w p (by simp [DomOp.operands]) rfl
  | replace self new old =>
    have hs := hv self (by simp [DomOp.operands])
    have hn := hv new (by simp [DomOp.operands])
    have ho := hv old (by simp [DomOp.operands])
    simp only [Heap.step] at he
    rcases replace_ok (fuel := fuel) i.wf (frag_some i) hs hn ho with h1 | h1 | ⟨h1, -⟩ | ⟨h1, h2, a, b, e, w1, w2, hne, hk, d, p⟩
    · rw [h1] at he; cases he
    · rw [h1] at he; cases he; exact same_step i _ _
    · rw [h1] at he; cases he; exact same_step i _ _
    · rw [e] at he; cases he
      have hko : h.knd old ≠ .fragment := i.wf.nofrag self old (by rw [hk]; simp)
      rcases p with ⟨h3, -, p⟩ | ⟨-, -, p⟩
      · apply detach_step (place_step i w1 h3 p (op := .replace self new old) (by simp [DomOp.operands])) w2 d (by simp [DomOp.operands])
        unfold Heap.knd; rw [(skin_knd (p.skin old)).1]; exact hko
      · apply detach_step (splice_step i w1 p (op := .replace self new old) (by simp [DomOp.operands]) rfl) w2 d (by simp [DomOp.operands])
        unfold Heap.knd; rw [(skin_knd (p.skin old)).1]; exact hko
  | remove self node =>
    have hn := hv node (by simp [DomOp.operands])
    simp only [Heap.step] at he
    rcases remove_ok (self := self) i.wf hn with h1 | ⟨h1, -⟩ | ⟨h2, h1, w, hm, d⟩
    · rw [h1] at he; cases he; exact same_step i _ _
    · rw [h1] at he; cases he; exact same_step i _ _
    · rw [h1] at he; cases he
      exact detach_step (same_step i (.remove self node) (some ())) w d (by simp [DomOp.operands]) (i.wf.nofrag self node hm)
  | clone a deep ov =>
    have ha := hv a (by simp [DomOp.operands])
    simp only [Heap.step] at he
    rcases hc : h.cloneNode fuel a deep ov with _ | ⟨h1, b⟩
    · rw [hc] at he; cases he
    · obtain ⟨i1, g, e, -⟩ := cloneNode_inv i ha hc
      subst e
      rw [hc] at he
      simp only [Res.andThen, Option.some.injEq, Prod.mk.injEq] at he
      obtain ⟨rfl, rfl⟩ := he
      exact ⟨i1, nofun, fun S o _ => grow_framed i i1.wf g o, fun _ hh => g.host hh, g.le⟩
  | setAttr a key value =>
    simp only [Heap.step] at he
    rcases hd : (h.obj a).attrs with _ | d
    · rw [hd] at he; cases he; exact same_step i _ _
    · rw [hd] at he
      simp only [Option.some.injEq, Prod.mk.injEq] at he
      obtain ⟨rfl, rfl⟩ := he
      refine ⟨⟨⟨i.wf.back, i.wf.once, i.wf.up, ?_, i.wf.rank, i.wf.nofrag, i.wf.tpl, i.wf.leaf, i.wf.fresh⟩, ⟨i.shape.cls, i.shape.att, i.shape.dlt, i.shape.own, i.shape.tplc⟩⟩,
        nofun, ?_, fun _ hh => hh, Nat.le_refl _⟩
      · intro n
        have := i.wf.rooted n
        induction this with
        | root h1 => exact .root h1
        | up h1 _ ih => exact .up h1 ih
      · intro S o hS
        refine ⟨fun _ _ => rfl, ?_, ⟨o.par, o.cont, o.lt⟩⟩
        intro n d' hn hd'
        dsimp only
        rw [if_neg]
        rintro rfl
        have := i.shape.own n a _ hd' hd
        subst this
        exact hS n (by simp [DomOp.operands]) hn
  | setData a data =>
    have ha := hv a (by simp [DomOp.operands])
    simp only [Heap.step, Option.some.injEq, Prod.mk.injEq] at he
    obtain ⟨rfl, rfl⟩ := he
    have fld : ∀ n, ((h.mod a fun o => { o with data := data }).obj n).parent = (h.obj n).parent ∧
        ((h.mod a fun o => { o with data := data }).obj n).children = (h.obj n).children ∧
        ((h.mod a fun o => { o with data := data }).obj n).kind = (h.obj n).kind ∧
        ((h.mod a fun o => { o with data := data }).obj n).content = (h.obj n).content ∧
        ((h.mod a fun o => { o with data := data }).obj n).attrs = (h.obj n).attrs ∧
        ((h.mod a fun o => { o with data := data }).obj n).ns = (h.obj n).ns := by
      intro n
      rw [obj_mod]
      split <;> exact ⟨rfl, rfl, rfl, rfl, rfl, rfl⟩
    generalize hh : (h.mod a fun o => { o with data := data }) = h' at fld
    have hnx : h'.next = h.next := by rw [← hh]; rfl
    have hpar : ∀ n, h'.par n = h.par n := fun n => (fld n).1
    have hkids : ∀ n, h'.kids n = h.kids n := fun n => by unfold Heap.kids; rw [(fld n).2.1]
    have hknd : ∀ n, h'.knd n = h.knd n := fun n => (fld n).2.2.1
    have hcont : ∀ n, h'.cont n = h.cont n := fun n => (fld n).2.2.2.1
    refine ⟨⟨⟨?_, ?_, ?_, ?_, ?_, ?_, ?_, ?_, ?_⟩, ⟨?_, ?_, ?_, ?_, ?_⟩⟩, nofun, ?_, ?_, Nat.le_of_eq hnx.symm⟩
    · intro p c; rw [hkids, hpar]; exact i.wf.back p c
    · intro p; rw [hkids]; exact i.wf.once p
    · intro c p; rw [hpar, hkids, hcont]; exact i.wf.up c p
    · intro n
      have := i.wf.rooted n
      induction this with
      | root h1 => exact .root (by rw [hpar]; exact h1)
      | up h1 _ ih => exact .up (by rw [hpar]; exact h1) ih
    · obtain ⟨r, hr⟩ := i.wf.rank
      exact ⟨r, fun n p hp => hr n p (by rw [← hpar]; exact hp)⟩
    · intro p c; rw [hkids, hknd]; exact i.wf.nofrag p c
    · intro t f; rw [hcont, hknd, hknd]; exact i.wf.tpl t f
    · intro n; rw [hknd, hkids]; exact i.wf.leaf n
    · intro n hn
      rw [hnx] at hn
      rw [← hh, obj_mod, if_neg (by omega)]
      exact i.wf.fresh n hn
    · intro n; rw [(fld n).2.1, hknd]; exact i.shape.cls n
    · intro n; rw [(fld n).2.2.2.2.1, hknd]; exact i.shape.att n
    · intro n d; rw [(fld n).2.2.2.2.1, show h'.nextDict = h.nextDict from by rw [← hh]; rfl]; exact i.shape.dlt n d
    · intro n m d; rw [(fld n).2.2.2.2.1, (fld m).2.2.2.2.1]; exact i.shape.own n m d
    · intro t; rw [hknd, (fld t).2.2.2.2.2, hcont]; exact i.shape.tplc t
    · intro S o hS
      have hSa : ¬ S a := hS a (by simp [DomOp.operands])
      refine ⟨?_, fun n d _ _ => by rw [← hh]; rfl, ⟨?_, ?_, ?_⟩⟩
      · intro n hn
        rw [← hh, obj_mod, if_neg]
        rintro rfl; exact hSa hn
      · intro n m; rw [hpar]; exact o.par n m
      · intro t f; rw [hcont]; exact o.cont t f
      · intro n hn; rw [hnx]; exact o.lt n hn
    · intro _ hho t f; rw [hcont, hpar]; exact hho t f

/-! ### Histories -/

theorem calls_inv {ok : Heap → DomOp → Prop} {h h' : Heap} (c : Spec.Calls ok h h') (i : Inv h) : Inv h' := by
  induction c with
  | refl => exact i
  | call _ hv _ he ih => exact (step_ok ih hv he).inv

theorem calls_next {ok : Heap → DomOp → Prop} {h h' : Heap} (c : Spec.Calls ok h h') (i : Inv h) : h.next ≤ h'.next := by
  induction c with
  | refl => exact Nat.le_refl _
  | call c hv _ he ih => exact Nat.le_trans ih (step_ok (calls_inv c i) hv he).next

theorem calls_host {h h' : Heap} (c : Spec.Calls Spec.Tidy h h') (i : Inv h) (hh : Host h) : Host h' := by
  induction c with
  | refl => exact hh
  | call c hv ht he ih => exact (step_ok (calls_inv c i) hv he).host ht ih

theorem calls_framed {S : Nat → Prop} {h h' : Heap} (c : Spec.Calls (fun _ op => ∀ n ∈ op.operands, ¬ S n) h h') (i : Inv h) (o : Iso h S) : Framed h h' S := by
  induction c with
  | refl => exact framed_refl o
  | call c hv ht he ih => exact framed_trans ih ((step_ok (calls_inv c i) hv he).framed S ih.iso ht)

theorem reach_inv {h : Heap} (r : Spec.Reachable h) : Inv h := calls_inv r inv_empty

theorem calls_mono {ok ok' : Heap → DomOp → Prop} (hm : ∀ h op, ok h op → ok' h op) {h h' : Heap} (c : Spec.Calls ok h h') : Spec.Calls ok' h h' := by
  induction c with
  | refl => exact .refl _
  | call _ hv ho he ih => exact .call ih hv (hm _ _ ho) he

theorem tidy_reach {h : Heap} (r : Spec.TidyReachable h) : Spec.Reachable h := calls_mono (fun _ _ _ => trivial) r

theorem tidy_host {h : Heap} (r : Spec.TidyReachable h) : Host h := calls_host r inv_empty (by intro t f h; cases h)

end JH
