import Verif.Model.DomHeap
/-! The invariant of the DOM heap and the primitive steps that keep it. -/
namespace JH

/-- The fields of a node. -/
def Heap.par (h : Heap) (n : Nat) : Option Nat := (h.obj n).parent
def Heap.knd (h : Heap) (n : Nat) : Kind := (h.obj n).kind
def Heap.cont (h : Heap) (n : Nat) : Option Nat := (h.obj n).content

/-- `n` is met on the way up from `s`, `s` included. -/
inductive Chain (h : Heap) : Nat → Nat → Prop
  | refl (s : Nat) : Chain h s s
  | up {s p n : Nat} : h.par s = some p → Chain h p n → Chain h s n

/-- The way up from `n` ends. -/
inductive Rooted (h : Heap) : Nat → Prop
  | root {n : Nat} : h.par n = none → Rooted h n
  | up {n p : Nat} : h.par n = some p → Rooted h p → Rooted h n

/-- The invariant. -/
structure WF (h : Heap) : Prop where
  back : ∀ p c, c ∈ h.kids p → h.par c = some p
  once : ∀ p, (h.kids p).Nodup
  up : ∀ c p, h.par c = some p → c ∈ h.kids p ∨ h.cont p = some c
  rooted : ∀ n, Rooted h n
  rank : ∃ r : Nat → Nat, ∀ n p, h.par n = some p → r n < r p
  nofrag : ∀ p c, c ∈ h.kids p → h.knd c ≠ .fragment
  tpl : ∀ t f, h.cont t = some f → h.knd t = .template ∧ h.knd f = .fragment
  leaf : ∀ n, h.knd n = .text → h.kids n = []
  fresh : ∀ n, h.next ≤ n → h.obj n = {}

theorem chain_snoc {h : Heap} {s n p : Nat} (hc : Chain h s n) (hp : h.par n = some p) : Chain h s p := by
  induction hc with
  | refl s => exact .up hp (.refl _)
  | up h1 _ ih => exact .up h1 (ih hp)

theorem chain_trans {h : Heap} {a b c : Nat} (h1 : Chain h a b) (h2 : Chain h b c) : Chain h a c := by
  induction h1 with
  | refl _ => exact h2
  | up h3 _ ih => exact .up h3 (ih h2)

/-- Nothing is its own proper ancestor. -/
theorem rooted_irrefl {h : Heap} {n : Nat} (hr : Rooted h n) : ∀ p, h.par n = some p → ¬ Chain h p n := by
  induction hr with
  | root h1 => intro p hp; rw [h1] at hp; cases hp
  | @up n q h1 _ ih =>
    intro p hp hc
    rw [h1] at hp
    injection hp with hp
    subst hp
    cases hc with
    | refl => exact ih _ h1 (.refl _)
    | up h3 h4 => exact ih _ h3 (chain_snoc h4 h1)

/-- Cutting pointers, and pointing nodes not above `s` to `s`, makes no cycle. -/
theorem rooted_change {h h' : Heap} (hr : ∀ n, Rooted h n) (s : Nat)
    (hc : ∀ n, h'.par n = h.par n ∨ h'.par n = none ∨ (h'.par n = some s ∧ ¬ Chain h s n)) : ∀ n, Rooted h' n := by
  have above : ∀ m, Rooted h m → Chain h s m → Rooted h' m := by
    intro m hm
    induction hm with
    | @root m h1 =>
      intro hch
      rcases hc m with h2 | h2 | ⟨-, h3⟩
      · exact .root (by rw [h2]; exact h1)
      · exact .root h2
      · exact absurd hch h3
    | @up m p h1 _ ih =>
      intro hch
      rcases hc m with h2 | h2 | ⟨-, h3⟩
      · exact .up (by rw [h2]; exact h1) (ih (chain_snoc hch h1))
      · exact .root h2
      · exact absurd hch h3
  intro n
  have hn := hr n
  induction hn with
  | @root m h1 =>
    rcases hc m with h2 | h2 | ⟨h2, -⟩
    · exact .root (by rw [h2]; exact h1)
    · exact .root h2
    · exact .up h2 (above s (hr s) (.refl _))
  | @up m p h1 _ ih =>
    rcases hc m with h2 | h2 | ⟨h2, -⟩
    · exact .up (by rw [h2]; exact h1) ih
    · exact .root h2
    · exact .up h2 (above s (hr s) (.refl _))

/-- Heights can be given after such a change. -/
theorem rank_change {h h' : Heap} {r : Nat → Nat} (hr : ∀ n p, h.par n = some p → r n < r p) (s K : Nat)
    (hc : ∀ n, h'.par n = h.par n ∨ h'.par n = none ∨ (h'.par n = some s ∧ ¬ Chain h s n ∧ r n ≤ K)) : ∃ r : Nat → Nat, ∀ n p, h'.par n = some p → r n < r p := by
  classical
  refine ⟨fun m => if Chain h s m then r m + K + 1 else r m, ?_⟩
  intro n p hp
  dsimp only
  rcases hc n with h1 | h1 | ⟨h1, h2, h3⟩
  · rw [h1] at hp
    have := hr n p hp
    by_cases hn : Chain h s n
    · rw [if_pos hn, if_pos (chain_snoc hn hp)]; omega
    · rw [if_neg hn]
      split <;> omega
  · rw [h1] at hp; cases hp
  · rw [h1] at hp
    injection hp with hp
    subst hp
    rw [if_neg h2, if_pos (.refl _)]; omega

/-! ### Projections of updates -/

theorem obj_mod (h : Heap) (a : Nat) (f : Obj → Obj) (n : Nat) : (h.mod a f).obj n = if n = a then f (h.obj n) else h.obj n := rfl

theorem par_setParent (h : Heap) (a : Nat) (p : Option Nat) (n : Nat) : (h.setParent a p).par n = if n = a then p else h.par n := by
  unfold Heap.par Heap.setParent; rw [obj_mod]; split <;> rfl
theorem kids_setParent (h : Heap) (a : Nat) (p : Option Nat) (n : Nat) : (h.setParent a p).kids n = h.kids n := by
  unfold Heap.kids Heap.setParent; rw [obj_mod]; split <;> rfl
theorem knd_setParent (h : Heap) (a : Nat) (p : Option Nat) (n : Nat) : (h.setParent a p).knd n = h.knd n := by
  unfold Heap.knd Heap.setParent; rw [obj_mod]; split <;> rfl
theorem cont_setParent (h : Heap) (a : Nat) (p : Option Nat) (n : Nat) : (h.setParent a p).cont n = h.cont n := by
  unfold Heap.cont Heap.setParent; rw [obj_mod]; split <;> rfl
theorem par_setKids (h : Heap) (a : Nat) (l : List Nat) (n : Nat) : (h.setKids a l).par n = h.par n := by
  unfold Heap.par Heap.setKids; rw [obj_mod]; split <;> rfl
theorem kids_setKids (h : Heap) (a : Nat) (l : List Nat) (n : Nat) : (h.setKids a l).kids n = if n = a then l else h.kids n := by
  unfold Heap.kids Heap.setKids; rw [obj_mod]; split <;> rfl
theorem knd_setKids (h : Heap) (a : Nat) (l : List Nat) (n : Nat) : (h.setKids a l).knd n = h.knd n := by
  unfold Heap.knd Heap.setKids; rw [obj_mod]; split <;> rfl
theorem cont_setKids (h : Heap) (a : Nat) (l : List Nat) (n : Nat) : (h.setKids a l).cont n = h.cont n := by
  unfold Heap.cont Heap.setKids; rw [obj_mod]; split <;> rfl

theorem next_mod (h : Heap) (a : Nat) (f : Obj → Obj) : (h.mod a f).next = h.next := rfl
theorem next_setParent (h : Heap) (a : Nat) (p : Option Nat) : (h.setParent a p).next = h.next := rfl
theorem next_setKids (h : Heap) (a : Nat) (l : List Nat) : (h.setKids a l).next = h.next := rfl

theorem obj_setParents (l : List Nat) (h : Heap) (p n : Nat) :
    (h.setParents l p).obj n = if n ∈ l then { h.obj n with parent := some p } else h.obj n := by
  unfold Heap.setParents
  induction l generalizing h with
  | nil => simp
  | cons c l ih =>
    rw [List.foldl_cons, ih]
    unfold Heap.setParent
    rw [obj_mod]
    by_cases h1 : n = c <;> by_cases h2 : n ∈ l <;> simp [h1, h2]

theorem par_setParents (l : List Nat) (h : Heap) (p n : Nat) : (h.setParents l p).par n = if n ∈ l then some p else h.par n := by
  unfold Heap.par; rw [obj_setParents]; split <;> rfl
theorem kids_setParents (l : List Nat) (h : Heap) (p n : Nat) : (h.setParents l p).kids n = h.kids n := by
  unfold Heap.kids; rw [obj_setParents]; split <;> rfl
theorem knd_setParents (l : List Nat) (h : Heap) (p n : Nat) : (h.setParents l p).knd n = h.knd n := by
  unfold Heap.knd; rw [obj_setParents]; split <;> rfl
theorem cont_setParents (l : List Nat) (h : Heap) (p n : Nat) : (h.setParents l p).cont n = h.cont n := by
  unfold Heap.cont; rw [obj_setParents]; split <;> rfl
theorem next_setParents (l : List Nat) (h : Heap) (p : Nat) : (h.setParents l p).next = h.next := by
  unfold Heap.setParents
  induction l generalizing h with
  | nil => rfl
  | cons c l ih => rw [List.foldl_cons, ih]; rfl

theorem dict_setParents (l : List Nat) (h : Heap) (p : Nat) : (h.setParents l p).dict = h.dict ∧ (h.setParents l p).nextDict = h.nextDict := by
  unfold Heap.setParents
  induction l generalizing h with
  | nil => exact ⟨rfl, rfl⟩
  | cons c l ih => rw [List.foldl_cons]; exact ih _

/-! ### The way up -/

theorem walkUp_true {h : Heap} {node : Nat} : ∀ f c, walkUp h node f (some c) = some true → Chain h c node := by
  intro f
  induction f with
  | zero => intro c h1; simp [walkUp] at h1
  | succ f ih =>
    intro c h1
    rw [walkUp] at h1
    split at h1
    · rename_i e; subst e; exact .refl _
    · rcases hp : (h.obj c).parent with _ | p
      · rw [hp] at h1; cases f <;> simp [walkUp] at h1
      · rw [hp] at h1; exact .up hp (ih p h1)

theorem walkUp_false {h : Heap} {node : Nat} : ∀ f c, walkUp h node f (some c) = some false → ¬ Chain h c node := by
  intro f
  induction f with
  | zero => intro c h1; simp [walkUp] at h1
  | succ f ih =>
    intro c h1 hc
    rw [walkUp] at h1
    split at h1
    · cases h1
    · rename_i e
      cases hc with
      | refl => exact e rfl
      | up h2 h3 =>
        have h2 : (h.obj c).parent = _ := h2
        rw [h2] at h1
        exact ih _ h1 h3

theorem walkUp_done {h : Heap} {node c : Nat} (hr : Rooted h c) : ∃ f0, ∀ f, f0 ≤ f → walkUp h node f (some c) ≠ none := by
  induction hr with
  | @root n h1 =>
    refine ⟨2, ?_⟩
    intro f hf
    obtain ⟨g, rfl⟩ : ∃ g, f = g + 2 := ⟨f - 2, by omega⟩
    rw [walkUp]
    have h1 : (h.obj n).parent = none := h1
    rw [h1, walkUp]
    split <;> simp
  | @up n p h1 _ ih =>
    obtain ⟨f0, hf0⟩ := ih
    refine ⟨f0 + 1, ?_⟩
    intro f hf
    obtain ⟨g, rfl⟩ : ∃ g, f = g + 1 := ⟨f - 1, by omega⟩
    rw [walkUp]
    have h1 : (h.obj n).parent = some p := h1
    rw [h1]
    split
    · simp
    · exact hf0 g (by omega)

/-! ### Lists -/

theorem idxOf_split {l : List Nat} {x i : Nat} (h : l.idxOf? x = some i) : l = l.take i ++ x :: l.drop (i + 1) ∧ x ∉ l.take i ∧ i < l.length := by
  induction l generalizing i with
  | nil => simp [List.idxOf?] at h
  | cons a l ih =>
    rw [List.idxOf?_cons] at h
    by_cases ha : (a == x) = true
    · rw [if_pos ha] at h
      obtain rfl : i = 0 := by simpa using h.symm
      simp only [beq_iff_eq] at ha
      subst ha
      simp
    · rw [if_neg ha] at h
      obtain ⟨j, hj, rfl⟩ := Option.map_eq_some_iff.1 h
      obtain ⟨h1, h2, h3⟩ := ih hj
      refine ⟨?_, ?_, by simpa using h3⟩
      · simp only [List.take_succ_cons, List.drop_succ_cons, List.cons_append]
        rw [← h1]
      · simp only [beq_iff_eq] at ha
        simp only [List.take_succ_cons, List.mem_cons, not_or]
        exact ⟨fun e => ha e.symm, h2⟩

theorem idxOf_none {l : List Nat} {x : Nat} : l.idxOf? x = none ↔ x ∉ l := by
  simp

theorem filter_ne_of_not_mem {l : List Nat} {x : Nat} (h : x ∉ l) : l.filter (fun y => y ≠ x) = l := by
  rw [List.filter_eq_self]
  intro y hy
  simp only [ne_eq, decide_not, Bool.not_eq_eq_eq_not, Bool.not_true, decide_eq_false_iff_not]
  rintro rfl; exact h hy

theorem filter_ne_split {a b : List Nat} {x : Nat} (h : (a ++ x :: b).Nodup) : (a ++ x :: b).filter (fun y => y ≠ x) = a ++ b := by
  rw [List.nodup_append, List.nodup_cons] at h
  rw [List.filter_append, List.filter_cons, if_neg (by simp), filter_ne_of_not_mem, filter_ne_of_not_mem h.2.1.1]
  intro hx; exact h.2.2 x hx x (by simp) rfl

theorem erase_eq_filter {l : List Nat} {x i : Nat} (hn : l.Nodup) (h : l.idxOf? x = some i) : l.eraseIdx i = l.filter fun y => y ≠ x := by
  obtain ⟨h1, -, h3⟩ := idxOf_split h
  rw [List.eraseIdx_eq_take_drop_succ]
  conv => rhs; rw [h1]
  rw [filter_ne_split]
  rw [← h1]; exact hn

/-! ### Detaching and linking -/

/-- What a heap looks like with `node` taken out of its parent. -/
structure Detached (h h1 : Heap) (node : Nat) : Prop where
  par : ∀ n, h1.par n = if n = node then none else h.par n
  kids : ∀ n, h1.kids n = (h.kids n).filter fun y => y ≠ node
  knd : ∀ n, h1.knd n = h.knd n
  cont : ∀ n, h1.cont n = h.cont n
  rest : ∀ n, n ≠ node → h.par node ≠ some n → h1.obj n = h.obj n
  some : ∀ n, (h1.obj n).children.isSome = (h.obj n).children.isSome
  next : h1.next = h.next
  dict : h1.dict = h.dict ∧ h1.nextDict = h.nextDict
  skin : ∀ n, { h1.obj n with parent := none, children := none } = { h.obj n with parent := none, children := none }

theorem WF.lt_of_par {h : Heap} (w : WF h) {n p : Nat} (hp : h.par n = some p) : n < h.next ∧ p < h.next := by
  constructor
  · rcases Nat.lt_or_ge n h.next with h1 | h1
    · exact h1
    · rw [Heap.par, w.fresh n h1] at hp; cases hp
  · rcases Nat.lt_or_ge p h.next with h1 | h1
    · exact h1
    · rcases w.up n p hp with h2 | h2
      · rw [Heap.kids, w.fresh p h1] at h2; cases h2
      · rw [Heap.cont, w.fresh p h1] at h2; cases h2

theorem detached_wf {h h1 : Heap} {node : Nat} (w : WF h) (d : Detached h h1 node) (hlt : node < h.next) : WF h1 := by
  refine ⟨?_, ?_, ?_, ?_, ?_, ?_, ?_, ?_, ?_⟩
  · intro p c hc
    rw [d.kids, List.mem_filter] at hc
    rw [d.par, if_neg (by simpa using hc.2)]
    exact w.back p c hc.1
  · intro p; rw [d.kids]; exact List.Nodup.sublist List.filter_sublist (w.once p)
  · intro c p hp
    rw [d.par] at hp
    split at hp
    · cases hp
    · rename_i hne
      rcases w.up c p hp with h2 | h2
      · left; rw [d.kids]; exact List.mem_filter.2 ⟨h2, by simpa using hne⟩
      · right; rw [d.cont]; exact h2
  · apply rooted_change w.rooted 0
    intro n
    rw [d.par]
    split
    · exact .inr (.inl rfl)
    · exact .inl rfl
  · obtain ⟨r, hr⟩ := w.rank
    apply rank_change hr 0 0
    intro n
    rw [d.par]
    split
    · exact .inr (.inl rfl)
    · exact .inl rfl
  · intro p c hc
    rw [d.kids, List.mem_filter] at hc
    rw [d.knd]; exact w.nofrag p c hc.1
  · intro t f ht
    rw [d.cont] at ht
    rw [d.knd, d.knd]; exact w.tpl t f ht
  · intro n hn
    rw [d.knd] at hn
    rw [d.kids, w.leaf n hn]; rfl
  · intro n hn
    rw [d.next] at hn
    rw [d.rest n (by omega)]
    · exact w.fresh n hn
    · intro hp
      have := (w.lt_of_par hp).2
      omega

theorem adopt_spec {fuel : Nat} {h h1 : Heap} {self node : Nat} {old : Option Nat × Option Nat} (w : WF h)
    (ha : h.adopt fuel self node = some (h1, some old)) :
    node ≠ self ∧ ¬ Chain h self node ∧ Detached h h1 node ∧
    (old = (h.par node, (match h.par node with | none => none | some p => (h.kids p).idxOf? node)) ∨ (old = (none, none) ∧ h.par node = none)) := by
  unfold Heap.adopt at ha
  split at ha
  · cases ha
  rename_i hne
  dsimp only at ha
  split at ha
  · rename_i hc
    obtain ⟨h2, h3, h4⟩ := hc
    simp only [Option.some.injEq, Prod.mk.injEq] at ha
    obtain ⟨rfl, rfl⟩ := ha
    have nopar : ∀ c, h.par c ≠ some node := by
      intro c hc
      rcases w.up c node hc with h5 | h5
      · rw [h3] at h5; cases h5
      · rcases h4 with h4 | h4
        · exact h4 (w.tpl node c h5).1
        · have h5 : (h.obj node).content = some c := h5
          rw [h4] at h5; cases h5
    have hnk : ∀ n, node ∉ h.kids n := by
      intro n hm
      have := w.back n node hm
      rw [show h.par node = none from h2] at this
      cases this
    refine ⟨hne, ?_, ⟨?_, ?_, fun _ => rfl, fun _ => rfl, fun _ _ _ => rfl, fun _ => rfl, rfl, ⟨rfl, rfl⟩, fun _ => rfl⟩, .inr ⟨rfl, h2⟩⟩
    · intro hch
      have : ∀ s, Chain h s node → s = node := by
        intro s hs
        generalize hz : node = z at hs
        induction hs with
        | refl _ => rfl
        | up h5 h6 ih =>
          have e := ih hz
          subst hz
          subst e
          exact absurd h5 (nopar _)
      exact hne (this self hch).symm
    · intro n
      split
      · rename_i e; rw [e]; exact h2
      · rfl
    · intro n
      rw [filter_ne_of_not_mem (hnk n)]
  · rename_i hc
    split at ha
    · cases ha
    · cases ha
    · rename_i hw
      simp only [Option.some.injEq, Prod.mk.injEq] at ha
      obtain ⟨rfl, rfl⟩ := ha
      have hch := walkUp_false _ _ hw
      have hpar : (h.obj node).parent = h.par node := rfl
      refine ⟨hne, hch, ?_, ?_⟩
      · rcases hp : h.par node with _ | p
        · have hd : h.detach (h.obj node).parent node = (h, none) := by rw [hpar, hp]; rfl
          rw [hd]
          dsimp only
          refine ⟨?_, ?_, ?_, ?_, ?_, ?_, rfl, ⟨rfl, rfl⟩, ?_⟩
          · intro n; rw [par_setParent]
          · intro n
            rw [kids_setParent, filter_ne_of_not_mem]
            intro hm
            have := w.back n node hm
            rw [hp] at this; cases this
          · intro n; rw [knd_setParent]
          · intro n; rw [cont_setParent]
          · intro n hn _; unfold Heap.setParent; rw [obj_mod, if_neg hn]
          · intro n; unfold Heap.setParent; rw [obj_mod]; split <;> rfl
          · intro n; unfold Heap.setParent; rw [obj_mod]; split <;> rfl
        · have hpn : p ≠ node := by
            rintro rfl
            exact rooted_irrefl (w.rooted p) p hp (.refl _)
          have other : ∀ n, n ≠ p → node ∉ h.kids n := by
            intro n hn hm
            have := w.back n node hm
            rw [hp] at this; injection this with this; exact hn this.symm
          rw [hpar, hp]
          unfold Heap.detach
          dsimp only
          rcases hk : (h.obj p).children with _ | l
          · dsimp only
            have hkp : h.kids p = [] := by unfold Heap.kids; rw [hk]; rfl
            refine ⟨?_, ?_, ?_, ?_, ?_, ?_, rfl, ⟨rfl, rfl⟩, ?_⟩
            · intro n; rw [par_setParent]
            · intro n
              rw [kids_setParent, filter_ne_of_not_mem]
              by_cases hn : n = p
              · rw [hn, hkp]; simp
              · exact other n hn
            · intro n; rw [knd_setParent]
            · intro n; rw [cont_setParent]
            · intro n hn _; unfold Heap.setParent; rw [obj_mod, if_neg hn]
            · intro n; unfold Heap.setParent; rw [obj_mod]; split <;> rfl
            · intro n; unfold Heap.setParent; rw [obj_mod]; split <;> rfl
          · dsimp only
            have hkp : h.kids p = l := by unfold Heap.kids; rw [hk]; rfl
            rcases hi : l.idxOf? node with _ | i
            · dsimp only
              refine ⟨?_, ?_, ?_, ?_, ?_, ?_, rfl, ⟨rfl, rfl⟩, ?_⟩
              · intro n; rw [par_setParent]
              · intro n
                rw [kids_setParent, filter_ne_of_not_mem]
                by_cases hn : n = p
                · rw [hn, hkp]; exact idxOf_none.1 hi
                · exact other n hn
              · intro n; rw [knd_setParent]
              · intro n; rw [cont_setParent]
              · intro n hn _; unfold Heap.setParent; rw [obj_mod, if_neg hn]
              · intro n; unfold Heap.setParent; rw [obj_mod]; split <;> rfl
              · intro n; unfold Heap.setParent; rw [obj_mod]; split <;> rfl
            · dsimp only
              refine ⟨?_, ?_, ?_, ?_, ?_, ?_, rfl, ⟨rfl, rfl⟩, ?_⟩
              · intro n; rw [par_setParent, par_setKids]
              · intro n
                rw [kids_setParent, kids_setKids]
                split
                · rename_i e; rw [e, hkp]; exact erase_eq_filter (hkp ▸ w.once p) hi
                · rename_i hn; rw [filter_ne_of_not_mem (other n hn)]
              · intro n; rw [knd_setParent, knd_setKids]
              · intro n; rw [cont_setParent, cont_setKids]
              · intro n hn hn2
                unfold Heap.setParent; rw [obj_mod, if_neg hn]
                unfold Heap.setKids; rw [obj_mod, if_neg (by rintro rfl; exact hn2 hp)]
              · intro n
                unfold Heap.setParent Heap.setKids
                rw [obj_mod, obj_mod]
                by_cases e : n = p
                · rw [if_neg (by rw [e]; exact hpn), if_pos e, e, hk]; rfl
                · rw [if_neg e]; split <;> rfl
              · intro n
                unfold Heap.setParent Heap.setKids
                rw [obj_mod, obj_mod]
                split <;> split <;> rfl
      · left
        rw [hpar]
        rcases hp : h.par node with _ | p
        · rfl
        · dsimp only
          unfold Heap.detach Heap.kids
          dsimp only
          rcases hk : (h.obj p).children with _ | l
          · rfl
          · dsimp only [Option.getD]
            rcases l.idxOf? node with _ | i <;> rfl

theorem link_wf {h : Heap} {self node : Nat} {a b : List Nat} (w : WF h) (hk : h.kids self = a ++ b) (hp : h.par node = none)
    (hch : ¬ Chain h self node) (hf : h.knd node ≠ .fragment) (ht : h.knd self ≠ .text) (hs : self < h.next) (hn : node < h.next) :
    WF ((h.setKids self (a ++ node :: b)).setParent node (some self)) := by
  have hnk : ∀ n, node ∉ h.kids n := by
    intro n hm
    have := w.back n node hm
    rw [hp] at this; cases this
  refine ⟨?_, ?_, ?_, ?_, ?_, ?_, ?_, ?_, ?_⟩
  · intro p c hc
    rw [kids_setParent, kids_setKids] at hc
    rw [par_setParent, par_setKids]
    by_cases e : c = node
    · rw [if_pos e]
      split at hc
      · rename_i e2; rw [e2]
      · rw [e] at hc; exact absurd hc (hnk p)
    · rw [if_neg e]
      split at hc
      · rename_i e2
        rw [e2]
        apply w.back
        rw [hk]
        rcases List.mem_append.1 hc with h1 | h1
        · exact List.mem_append_left _ h1
        · rcases List.mem_cons.1 h1 with h1 | h1
          · exact absurd h1 e
          · exact List.mem_append_right _ h1
      · exact w.back p c hc
  · intro p
    rw [kids_setParent, kids_setKids]
    split
    · have h1 := w.once self
      have h2 := hnk self
      rw [hk] at h1 h2
      rw [List.nodup_append] at h1 ⊢
      simp only [List.mem_append, not_or] at h2
      refine ⟨h1.1, List.nodup_cons.2 ⟨h2.2, h1.2.1⟩, ?_⟩
      intro x hx y hy
      rcases List.mem_cons.1 hy with rfl | hy
      · rintro rfl; exact h2.1 hx
      · exact h1.2.2 x hx y hy
    · exact w.once p
  · intro c p hcp
    rw [par_setParent, par_setKids] at hcp
    rw [kids_setParent, kids_setKids, cont_setParent, cont_setKids]
    by_cases e : c = node
    · rw [if_pos e] at hcp
      injection hcp with hcp
      left
      rw [if_pos hcp.symm, e]; simp
    · rw [if_neg e] at hcp
      rcases w.up c p hcp with h1 | h1
      · left
        split
        · rename_i e2
          rw [e2, hk] at h1
          rcases List.mem_append.1 h1 with h1 | h1
          · exact List.mem_append_left _ h1
          · exact List.mem_append_right _ (List.mem_cons_of_mem _ h1)
        · exact h1
      · exact .inr h1
  · apply rooted_change w.rooted self
    intro n
    rw [par_setParent, par_setKids]
    split
    · rename_i e; rw [e]; exact .inr (.inr ⟨rfl, hch⟩)
    · exact .inl rfl
  · obtain ⟨r, hr⟩ := w.rank
    apply rank_change hr self (r node)
    intro n
    rw [par_setParent, par_setKids]
    split
    · rename_i e; rw [e]; exact .inr (.inr ⟨rfl, hch, Nat.le_refl _⟩)
    · exact .inl rfl
  · intro p c hc
    rw [kids_setParent, kids_setKids] at hc
    rw [knd_setParent, knd_setKids]
    by_cases e : c = node
    · rw [e]; exact hf
    · split at hc
      · rcases List.mem_append.1 hc with h1 | h1
        · exact w.nofrag self c (by rw [hk]; exact List.mem_append_left _ h1)
        · rcases List.mem_cons.1 h1 with h1 | h1
          · exact absurd h1 e
          · exact w.nofrag self c (by rw [hk]; exact List.mem_append_right _ h1)
      · exact w.nofrag p c hc
  · intro t f ht
    rw [cont_setParent, cont_setKids] at ht
    rw [knd_setParent, knd_setKids, knd_setParent, knd_setKids]
    exact w.tpl t f ht
  · intro n hn
    rw [knd_setParent, knd_setKids] at hn
    rw [kids_setParent, kids_setKids, if_neg (by rintro rfl; exact ht hn)]
    exact w.leaf n hn
  · intro n hnn
    rw [next_setParent, next_setKids] at hnn
    unfold Heap.setParent Heap.setKids
    rw [obj_mod, if_neg (by omega), obj_mod, if_neg (by omega)]
    exact w.fresh n hnn

theorem chain_detached {h h1 : Heap} {node s t : Nat} (d : Detached h h1 node) (hc : Chain h1 s t) : Chain h s t := by
  induction hc with
  | refl _ => exact .refl _
  | up h2 _ ih =>
    rw [d.par] at h2
    split at h2
    · cases h2
    · exact .up h2 ih

end JH
