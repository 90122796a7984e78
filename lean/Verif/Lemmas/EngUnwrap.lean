import Verif.Lemmas.EngWhole
import Verif.Model.EngBatch

/-! Unwrapping nodes in any order gives the same tree (C109). -/
namespace JH.Eng

/-- The children and the parent of each node. -/
structure View where
  K : Nat → List Nat
  P : Nat → Option Nat

/-- The children of nodes that are there agree with their parents, and the parents of the marked nodes are there. -/
structure View.Good (L M : Nat → Prop) (N : Nat) (v : View) : Prop where
  kids : ∀ p, L p → ∀ c ∈ v.K p, c < N ∧ L c ∧ v.P c = some p ∧ (v.K p).count c = 1
  par : ∀ i, M i → ∀ p, v.P i = some p → L p

/-- One marked node gives its place to its children. -/
structure View.Step (L M : Nat → Prop) (v : View) (i p : Nat) (w : View) : Prop where
  marked : M i
  live : L p
  mem : i ∈ v.K p
  kids : ∀ j, w.K j = if j = i then [] else if j = p then (v.K p).flatMap (fun x => if x = i then v.K i else [x]) else v.K j
  par : ∀ j, w.P j = if j = i then none else if j ∈ v.K i then some p else v.P j

/-- Some marked nodes give their places to their children. -/
inductive View.Chain (L M : Nat → Prop) (v : View) : View → Prop
  | refl : Chain L M v v
  | tail {w u : View} {i p : Nat} : Chain L M v w → View.Step L M w i p u → Chain L M v u

theorem View.Chain.trans {L M : Nat → Prop} {u v w : View} (h : View.Chain L M u v) (k : View.Chain L M v w) : View.Chain L M u w := by
  induction k with
  | refl => exact h
  | tail _ st ih => exact .tail ih st

section
variable {L M : Nat → Prop} {N : Nat} (hM : ∀ i, M i → L i)

theorem View.Good.unique {v : View} (h : v.Good L M N) {p q c : Nat} (hp : L p) (hq : L q) (h1 : c ∈ v.K p) (h2 : c ∈ v.K q) : p = q := by
  have := (h.kids p hp c h1).2.2.1.symm.trans (h.kids q hq c h2).2.2.1
  simpa using this

include hM in
theorem View.Good.step {v w : View} {i p : Nat} (h : v.Good L M N) (st : v.Step L M i p w) :
    w.Good L M N ∧ (∀ q, L q → i ∉ w.K q) ∧ (∀ x, (∀ q, L q → x ∉ v.K q) → ∀ q, L q → x ∉ w.K q) := by
  have hi := hM i st.marked
  have hself : i ∈ v.K i → p = i := fun k => h.unique st.live hi st.mem k
  refine ⟨⟨fun q hq c hc => ?_, fun m hm q hq => ?_⟩, fun q hq hc => ?_, fun x hx q hq hc => ?_⟩
  · rw [st.kids] at hc ⊢
    rw [st.par]
    by_cases hqi : q = i
    · rw [if_pos hqi] at hc; exact absurd hc (by simp)
    rw [if_neg hqi] at hc ⊢
    by_cases hqp : q = p
    · subst hqp
      rw [if_pos rfl] at hc ⊢
      rcases mem_splice.1 hc with ⟨h1, h2⟩ | ⟨_, h2⟩
      · obtain ⟨a, b, d, e⟩ := h.kids q hq c h1
        have hnm : c ∉ v.K i := fun k => hqi (h.unique hq hi h1 k)
        rw [if_neg h2, if_neg hnm, count_splice h2, List.count_eq_zero_of_not_mem hnm]
        exact ⟨a, b, d, by simpa using e⟩
      · obtain ⟨a, b, d, e⟩ := h.kids i hi c h2
        have hci : c ≠ i := fun k => hqi (hself (k ▸ h2))
        have hcq : c ∉ v.K q := fun k => hqi (h.unique hq hi k h2)
        rw [if_neg hci, if_pos h2, count_splice hci, List.count_eq_zero_of_not_mem hcq, e, (h.kids q hq i st.mem).2.2.2]
        exact ⟨a, b, rfl, rfl⟩
    · rw [if_neg hqp] at hc ⊢
      obtain ⟨a, b, d, e⟩ := h.kids q hq c hc
      have hci : c ≠ i := fun k => hqp (h.unique hq st.live hc (k ▸ st.mem))
      have hnm : c ∉ v.K i := fun k => hqi (h.unique hq hi hc k)
      rw [if_neg hci, if_neg hnm]
      exact ⟨a, b, d, e⟩
  · rw [st.par] at hq
    split at hq
    · exact absurd hq (by simp)
    · split at hq
      · exact (Option.some.inj hq) ▸ st.live
      · exact h.par m hm q hq
  · rw [st.kids] at hc
    split at hc
    · exact absurd hc (by simp)
    · next hqi =>
      split at hc
      · next hqp =>
        rcases mem_splice.1 hc with ⟨_, k⟩ | ⟨_, k⟩
        · exact k rfl
        · exact hqi (hqp.trans (hself k))
      · next hqp => exact hqp (h.unique hq st.live hc st.mem)
  · rw [st.kids] at hc
    split at hc
    · exact absurd hc (by simp)
    · split at hc
      · rcases mem_splice.1 hc with ⟨k, _⟩ | ⟨_, k⟩
        · exact hx p st.live k
        · exact hx i hi k
      · exact hx q hq hc

/-! ### What replaces a list of nodes -/

/-- The unmarked nodes that take the place of the list, in order. -/
inductive Expand (K : Nat → List Nat) (M : Nat → Prop) : List Nat → List Nat → Prop
  | nil : Expand K M [] []
  | keep {c l o} : ¬ M c → Expand K M l o → Expand K M (c :: l) (c :: o)
  | «open» {c l o} : M c → Expand K M (K c ++ l) o → Expand K M (c :: l) o

variable {K : Nat → List Nat}

theorem Expand.unique {l o o' : List Nat} (h : Expand K M l o) (k : Expand K M l o') : o = o' := by
  induction h generalizing o' with
  | nil => cases k; rfl
  | keep hc _ ih =>
    cases k with
    | keep _ k => rw [ih k]
    | «open» hc' _ => exact absurd hc' hc
  | «open» hc _ ih =>
    cases k with
    | keep hc' _ => exact absurd hc hc'
    | «open» _ k => exact ih k

theorem Expand.append {a b o o' : List Nat} (h : Expand K M a o) (k : Expand K M b o') : Expand K M (a ++ b) (o ++ o') := by
  induction h with
  | nil => exact k
  | keep hc _ ih => exact .keep hc ih
  | «open» hc _ ih => exact .open hc ((List.append_assoc _ _ _) ▸ ih)

theorem Expand.split {l o : List Nat} (h : Expand K M l o) : ∀ {a b : List Nat}, l = a ++ b → ∃ o1 o2, o = o1 ++ o2 ∧ Expand K M a o1 ∧ Expand K M b o2 := by
  induction h with
  | nil =>
    intro a b e
    obtain ⟨rfl, rfl⟩ := List.append_eq_nil_iff.1 e.symm
    exact ⟨[], [], rfl, .nil, .nil⟩
  | @keep c l o hc hx ih =>
    intro a b e
    cases a with
    | nil => exact ⟨[], c :: o, rfl, .nil, by rw [List.nil_append] at e; rw [← e]; exact .keep hc hx⟩
    | cons x a =>
      simp only [List.cons_append, List.cons.injEq] at e
      obtain ⟨rfl, e⟩ := e
      obtain ⟨o1, o2, rfl, h1, h2⟩ := ih e
      exact ⟨c :: o1, o2, rfl, .keep hc h1, h2⟩
  | @«open» c l o hc hx ih =>
    intro a b e
    cases a with
    | nil => exact ⟨[], o, rfl, .nil, by rw [List.nil_append] at e; rw [← e]; exact .open hc hx⟩
    | cons x a =>
      simp only [List.cons_append, List.cons.injEq] at e
      obtain ⟨rfl, e⟩ := e
      obtain ⟨o1, o2, rfl, h1, h2⟩ := ih (a := K c ++ a) (b := b) (by rw [e, List.append_assoc])
      exact ⟨o1, o2, rfl, .open hc h1, h2⟩

theorem Expand.clean : ∀ {l : List Nat}, (∀ c ∈ l, ¬ M c) → Expand K M l l
  | [], _ => .nil
  | c :: _, h => .keep (h c (by simp)) (Expand.clean fun x hx => h x (by simp [hx]))

theorem Expand.fold {i : Nat} (hi : M i) : ∀ {a o : List Nat}, Expand K M (a.flatMap fun x => if x = i then K i else [x]) o → Expand K M a o
  | [], _, h => h
  | x :: a, o, h => by
    rw [List.flatMap_cons] at h
    obtain ⟨o1, o2, rfl, h1, h2⟩ := h.split rfl
    have h2 := Expand.fold hi h2
    by_cases hx : x = i
    · rw [if_pos hx] at h1
      exact Expand.append (a := [x]) (.open (hx ▸ hi) (by simpa [hx] using h1)) h2
    · rw [if_neg hx] at h1
      exact Expand.append (a := [x]) h1 h2

include hM in
theorem Expand.back {v w : View} {i p : Nat} (h : v.Good L M N) (st : v.Step L M i p w) {l o : List Nat} (k : Expand w.K M l o) (hl : i ∉ l) : Expand v.K M l o := by
  have hi := (h.step hM st).2.1
  induction k with
  | nil => exact .nil
  | keep hc _ ih => exact .keep hc (ih fun k => hl (by simp [k]))
  | @«open» c l o hc _ ih =>
    have hci : c ≠ i := fun e => hl (by simp [e])
    have h1 := ih fun k => by
      rcases List.mem_append.1 k with k | k
      · exact hi c (hM c hc) k
      · exact hl (by simp [k])
    obtain ⟨o1, o2, rfl, h2, h3⟩ := h1.split rfl
    refine .open hc (Expand.append ?_ h3)
    rw [st.kids, if_neg hci] at h2
    split at h2
    · next e => rw [e]; exact Expand.fold st.marked h2
    · exact h2

include hM in
/-- Whatever was done in between, what takes the place of the children of an unmarked node is the same. -/
theorem View.Chain.expand {v w : View} (ch : View.Chain L M v w) (h : v.Good L M N) : w.Good L M N ∧
    ∀ q, L q → ¬ M q → ∀ o, Expand w.K M (w.K q) o → Expand v.K M (v.K q) o := by
  induction ch with
  | refl => exact ⟨h, fun _ _ _ _ k => k⟩
  | @tail w u i p _ st ih =>
    obtain ⟨hw, ih⟩ := ih
    obtain ⟨hu, hi, _⟩ := hw.step hM st
    refine ⟨hu, fun q hq hqm o k => ih q hq hqm o ?_⟩
    have k := Expand.back hM hw st k (hi q hq)
    have hqi : q ≠ i := fun e => hqm (e ▸ st.marked)
    rw [st.kids, if_neg hqi] at k
    split at k
    · next e => rw [e]; exact Expand.fold st.marked k
    · exact k

include hM in
/-- Two ways of unwrapping that leave no marked node below an unmarked one agree. -/
theorem View.Chain.agree {v w w' : View} (h : v.Good L M N) (ch : View.Chain L M v w) (ch' : View.Chain L M v w')
    (hw : ∀ q, L q → ¬ M q → ∀ c ∈ w.K q, ¬ M c) (hw' : ∀ q, L q → ¬ M q → ∀ c ∈ w'.K q, ¬ M c) {q : Nat} (hq : L q) (hm : ¬ M q) : w.K q = w'.K q :=
  ((ch.expand hM h).2 q hq hm _ (.clean (hw q hq hm))).unique ((ch'.expand hM h).2 q hq hm _ (.clean (hw' q hq hm)))

end

/-! ### One by one -/

/-- The children and the parent of each node of a state. -/
def St.view (s : St) : View := ⟨fun j => (s.n j).children, fun j => (s.n j).parent⟩

/-- What a node is apart from its place in the tree. -/
def ENode.core (n : ENode) : ENode := { n with children := [], parent := none }

/-- Only the places of the nodes differ. -/
structure Moved (s t : St) : Prop where
  cores : t.heap.map ENode.core = s.heap.map ENode.core
  doc : t.doc = s.doc
  rest : (t.ctxNode, t.stack, t.toUnwrap) = (s.ctxNode, s.stack, s.toUnwrap)

theorem Moved.refl (s : St) : Moved s s := ⟨rfl, rfl, rfl⟩
theorem Moved.trans {s t u : St} (h : Moved s t) (k : Moved t u) : Moved s u := ⟨k.cores.trans h.cores, k.doc.trans h.doc, k.rest.trans h.rest⟩
theorem Moved.symm {s t : St} (h : Moved s t) : Moved t s := ⟨h.cores.symm, h.doc.symm, h.rest.symm⟩
theorem Moved.ctx {s t : St} (h : Moved s t) : t.ctxNode = s.ctxNode := congrArg Prod.fst h.rest
theorem Moved.len {s t : St} (h : Moved s t) : t.heap.length = s.heap.length := by simpa using congrArg List.length h.cores

theorem Moved.node {s t : St} (h : Moved s t) (j : Nat) : (t.n j).core = (s.n j).core := by
  have := congrArg (fun l => l.getD j (default : ENode).core) h.cores
  simp only [List.getD_eq_getElem?_getD, List.getElem?_map] at this
  unfold St.n
  rw [List.getD_eq_getElem?_getD, List.getD_eq_getElem?_getD]
  cases h1 : t.heap[j]? <;> cases h2 : s.heap[j]? <;> simp_all

theorem Moved.upd (s : St) (i : Nat) (f : ENode → ENode) (h : ∀ n, (f n).core = n.core) : Moved s (s.upd i f) := by
  refine ⟨?_, rfl, rfl⟩
  unfold St.upd
  refine List.ext_getElem? fun j => ?_
  rw [List.getElem?_map, List.getElem?_map, List.getElem?_set]
  by_cases hj : i = j
  · subst hj
    rw [if_pos rfl]
    by_cases hl : i < s.heap.length
    · rw [if_pos hl, List.getElem?_eq_getElem hl]
      simp only [Option.map_some]
      rw [h]
      unfold St.n
      rw [List.getD_eq_getElem?_getD, List.getElem?_eq_getElem hl]; rfl
    · rw [if_neg hl, List.getElem?_eq_none (Nat.not_lt.1 hl)]
  · rw [if_neg hj]

theorem Moved.setParents (l : List Nat) (p : Nat) : ∀ s : St, Moved s (s.setParents l p) := by
  induction l with
  | nil => exact fun s => .refl s
  | cons c l ih => exact fun s => (Moved.upd s c (fun n => { n with parent := some p }) fun _ => rfl).trans (ih _)

theorem Moved.unwrapAt (s : St) (p i : Nat) : Moved s (s.unwrapAt p i) :=
  (Moved.upd s i (fun n => { n with children := [] }) fun _ => rfl).trans ((Moved.setParents _ _ _).trans
    ((Moved.upd _ p (fun n => { n with children := n.children.flatMap fun x => if x = i then (s.n i).children else [x] }) fun _ => rfl).trans
      (Moved.upd _ i (fun n => { n with parent := none }) fun _ => rfl)))

section
variable {L M : Nat → Prop} (hM : ∀ i, M i → L i)

include hM in
theorem unwrapOne_view (C : Cfg) {t : St} (h : t.view.Good L M t.heap.length) {i : Nat} (hi : M i) (hN : i < t.heap.length) :
    Moved t (unwrapOne i C t).2 ∧ (((unwrapOne i C t).2.view = t.view ∧ ∀ q, L q → i ∉ t.view.K q) ∨ ∃ p, View.Step L M t.view i p (unwrapOne i C t).2.view) := by
  rw [unwrapOne_eq]
  cases hp : (t.n i).parent with
  | none =>
    refine ⟨.refl t, .inl ⟨rfl, fun q hq hc => ?_⟩⟩
    have : (t.n i).parent = some q := (h.kids q hq i hc).2.2.1
    rw [hp] at this
    nomatch this
  | some p =>
    simp only
    by_cases hc : (t.n p).children.contains i = true
    · rw [if_pos hc]
      have hc : i ∈ (t.n p).children := by simpa using hc
      refine ⟨Moved.unwrapAt t p i, .inr ⟨p, hi, h.par i hi p hp, hc, fun j => (n_unwrapAt t hN (mem_lt hc) j).1, fun j => ?_⟩⟩
      refine (n_unwrapAt t hN (mem_lt hc) j).2.trans ?_
      by_cases hj : j ∈ (t.n i).children
      · have : j < t.heap.length := (h.kids i (hM i hi) j hj).1
        simp [St.view, hj, this]
      · simp [St.view, hj]
    · rw [if_neg hc]
      refine ⟨⟨rfl, rfl, rfl⟩, .inl ⟨rfl, fun q hq k => ?_⟩⟩
      have : (t.n i).parent = some q := (h.kids q hq i k).2.2.1
      rw [hp] at this
      have : p = q := by simpa using this
      exact hc (List.contains_iff_mem.2 (this ▸ k))

include hM in
theorem unwrapEach_view (C : Cfg) : ∀ (l : List Nat) (t : St), (∀ i ∈ l, M i ∧ i < t.heap.length) → t.view.Good L M t.heap.length →
    Moved t (each unwrapOne l C t).2 ∧ View.Chain L M t.view (each unwrapOne l C t).2.view ∧
      (∀ x, (∀ q, L q → x ∉ t.view.K q) → ∀ q, L q → x ∉ (each unwrapOne l C t).2.view.K q) ∧
      ∀ i ∈ l, ∀ q, L q → i ∉ (each unwrapOne l C t).2.view.K q := by
  intro l
  induction l with
  | nil => exact fun t _ _ => ⟨.refl t, .refl, fun _ h => h, fun i hi => absurd hi (by simp)⟩
  | cons x l ih =>
    intro t hl h
    obtain ⟨m, k⟩ := unwrapOne_view hM C h (hl x (by simp)).1 (hl x (by simp)).2
    have good : (unwrapOne x C t).2.view.Good L M (unwrapOne x C t).2.heap.length ∧ View.Chain L M t.view (unwrapOne x C t).2.view ∧
        (∀ y, (∀ q, L q → y ∉ t.view.K q) → ∀ q, L q → y ∉ (unwrapOne x C t).2.view.K q) ∧ ∀ q, L q → x ∉ (unwrapOne x C t).2.view.K q := by
      rw [m.len]
      rcases k with ⟨e, k⟩ | ⟨p, st⟩
      · rw [e]; exact ⟨h, .refl, fun _ h => h, k⟩
      · obtain ⟨a, b, d⟩ := h.step hM st
        exact ⟨a, .tail .refl st, d, b⟩
    obtain ⟨g1, g2, g3, g4⟩ := good
    obtain ⟨m', c', a', b'⟩ := ih (unwrapOne x C t).2 (fun i hi => ⟨(hl i (by simp [hi])).1, by rw [m.len]; exact (hl i (by simp [hi])).2⟩) g1
    refine ⟨m.trans m', ?_, fun y hy => a' y (g3 y hy), fun i hi => ?_⟩
    · exact View.Chain.trans g2 c'
    · rcases List.mem_cons.1 hi with rfl | hi
      · exact a' _ g4
      · exact b' i hi

end

/-! ### The batch -/

theorem n_openNode (s : St) {q c : Nat} (hc : c < s.heap.length) (j : Nat) :
    ((openNode s q c).n j).children = (if j = c then [] else (s.n j).children) ∧
    ((openNode s q c).n j).parent = if j ∈ (s.n c).children ∧ j < s.heap.length then some q else if j = c then none else (s.n j).parent := by
  have h := parents_some q (s.n c).children (s.upd c fun n => { n with children := [], parent := none }) j
  unfold openNode
  rw [h.1, h.2, len_upd, n_upd]
  by_cases hj : c = j
  · subst hj
    rw [if_pos ⟨rfl, hc⟩, if_pos rfl, if_pos rfl]
    exact ⟨rfl, rfl⟩
  · rw [if_neg fun (k : c = j ∧ _) => hj k.1, if_neg fun (k : j = c) => hj k.symm, if_neg fun (k : j = c) => hj k.symm]
    exact ⟨rfl, rfl⟩

theorem Moved.openNode (s : St) (q c : Nat) : Moved s (openNode s q c) :=
  (Moved.upd s c (fun n => { n with children := [], parent := none }) fun _ => rfl).trans (Moved.setParents _ _ _)

theorem flatMap_clean {i : Nat} {m : List Nat} : ∀ {l : List Nat}, i ∉ l → (l.flatMap fun x => if x = i then m else [x]) = l
  | [], _ => rfl
  | x :: l, h => by
    rw [List.flatMap_cons, flatMap_clean fun k => h (by simp [k]), if_neg fun k => h (by simp [k])]; rfl

theorem flatMap_once {i : Nat} {m a l : List Nat} (h : (a ++ i :: l).count i = 1) : ((a ++ i :: l).flatMap fun x => if x = i then m else [x]) = a ++ m ++ l := by
  rw [List.count_append, List.count_cons_self] at h
  rw [List.flatMap_append, List.flatMap_cons, flatMap_clean (List.count_eq_zero.1 (by omega)), flatMap_clean (List.count_eq_zero.1 (by omega)), if_pos rfl, List.append_assoc]

theorem kidCount_open (s : St) (q c : Nat) : kidCount (openNode s q c) + (s.n c).children.length = kidCount s := by
  have h1 : ∀ (l : List Nat) (s : St), kidCount (s.setParents l q) = kidCount s := by
    intro l s
    unfold kidCount
    congr 1
    refine List.ext_getElem (by simp [len_of_heads (heads_setParents s l q)]) fun j h2 h3 => ?_
    have := (parents_some q l s j).1
    unfold St.n at this
    rw [List.getElem_map, List.getElem_map]
    rw [List.length_map] at h2 h3
    rw [List.getD_eq_getElem?_getD, List.getD_eq_getElem?_getD, List.getElem?_eq_getElem h2, List.getElem?_eq_getElem h3] at this
    exact congrArg List.length this
  have h2 : ∀ (l : List ENode) (c : Nat) (x : ENode), x.children = [] → ((l.set c x).map fun n => n.children.length).sum + (l.getD c default).children.length = (l.map fun n => n.children.length).sum := by
    intro l
    induction l with
    | nil => intro c x hx; simp [default, instInhabitedENode.default]
    | cons a l ih =>
      intro c x hx
      cases c with
      | zero => simp [hx]; omega
      | succ c =>
        have := ih c x hx
        simp only [List.set_cons_succ, List.map_cons, List.sum_cons, List.getD_cons_succ]
        omega
  unfold openNode
  rw [h1]
  exact h2 s.heap c _ rfl

/-- A state that agrees with a view, but for the children of one node. -/
structure Sim (q : Nat) (v : View) (s : St) : Prop where
  kids : ∀ j, j ≠ q → (s.n j).children = v.K j
  par : ∀ j, (s.n j).parent = v.P j

section
variable {L M : Nat → Prop} {N : Nat} (hM : ∀ i, M i → L i)

/-- What has been done to the marked nodes below one node. -/
structure Went (L M : Nat → Prop) (N q : Nat) (v : View) (s : St) (w : View) (t : St) : Prop where
  moved : Moved s t
  chain : View.Chain L M v w
  good : w.Good L M N
  sim : Sim q w t
  off : ∀ x, ¬ M x → x ≠ q → w.K x = v.K x
  shut : ∀ x, M x → w.K x = v.K x ∨ w.K x = []
  keep : (t.n q).children = (s.n q).children

theorem Went.refl {q : Nat} {v : View} {s : St} (h : v.Good L M N) (k : Sim q v s) : Went L M N q v s v s :=
  ⟨.refl s, .refl, h, k, fun _ _ _ => rfl, fun _ _ => .inl rfl, rfl⟩

theorem Went.trans {q : Nat} {v w u : View} {s t r : St} (h : Went L M N q v s w t) (k : Went L M N q w t u r) : Went L M N q v s u r :=
  ⟨h.moved.trans k.moved, h.chain.trans k.chain, k.good, k.sim, fun x hx hq => (k.off x hx hq).trans (h.off x hx hq), fun x hx => by
    rcases k.shut x hx with e | e
    · rw [e]; exact h.shut x hx
    · exact .inr e, k.keep.trans h.keep⟩

include hM in
theorem openNode_went {q : Nat} {v : View} {s : St} (h : v.Good L M N) (hN : s.heap.length = N) (sim : Sim q v s) (hq : L q) (hqm : ¬ M q) {c : Nat} (hc : M c) {a l : List Nat}
    (e : v.K q = a ++ c :: l) : ∃ w, Went L M N q v s w (openNode s q c) ∧ w.K q = a ++ v.K c ++ l ∧ (s.n c).children = v.K c := by
  have hcq : c ≠ q := fun k => hqm (k ▸ hc)
  have hmem : c ∈ v.K q := by rw [e]; simp
  obtain ⟨k1, k2, k3, k4⟩ := h.kids q hq c hmem
  have hk := sim.kids c hcq
  have st : View.Step L M v c q ⟨fun j => if j = c then [] else if j = q then (v.K q).flatMap (fun x => if x = c then v.K c else [x]) else v.K j,
      fun j => if j = c then none else if j ∈ v.K c then some q else v.P j⟩ := ⟨hc, hq, hmem, fun _ => rfl, fun _ => rfl⟩
  have hn := fun j => n_openNode s (q := q) (c := c) (by omega) j
  refine ⟨_, ⟨Moved.openNode s q c, .tail .refl st, (h.step hM st).1, ⟨fun j hj => ?_, fun j => ?_⟩, fun x hx hxq => ?_, fun x hx => ?_, by rw [(hn q).1, if_neg hcq.symm]⟩, ?_, hk⟩
  · rw [(hn j).1]
    simp only
    rw [if_neg hj]
    split
    · rfl
    · exact sim.kids j hj
  · rw [(hn j).2, hk, sim.par]
    simp only
    by_cases hj : j ∈ v.K c
    · have := h.kids c (hM c hc) j hj
      have hjc : j ≠ c := fun k => by
        have h1 := this.2.2.1
        rw [k, k3] at h1
        exact hcq (by simpa using h1.symm)
      rw [if_pos ⟨hj, by omega⟩, if_neg hjc, if_pos hj]
    · rw [if_neg fun k => hj k.1, if_neg hj]
  · simp only
    rw [if_neg fun (k : x = c) => hx (k ▸ hc), if_neg hxq]
  · simp only
    by_cases k : x = c
    · rw [if_pos k]; exact .inr rfl
    · rw [if_neg k, if_neg fun (k : x = q) => hqm (k ▸ hx)]; exact .inl rfl
  · show (if q = c then [] else if q = q then _ else _) = _
    rw [if_neg hcq.symm, if_pos rfl, e]
    exact flatMap_once (by rw [← e]; exact k4)

include hM in
theorem expandLoop_went {marked : List Nat} (hmk : ∀ x, x ∈ marked ↔ M x) {q : Nat} (hq : L q) (hqm : ¬ M q) (a b : List Nat) : ∀ (f : Nat) (pending expanded : List Nat) (v : View) (s : St),
    v.Good L M N → s.heap.length = N → Sim q v s → v.K q = a ++ expanded ++ pending ++ b → (∀ x ∈ expanded, ¬ M x) →
    ∃ w, Went L M N q v s w (expandLoop marked q f pending expanded s).2 ∧ w.K q = a ++ (expandLoop marked q f pending expanded s).1 ++ b ∧
      (pending.length + kidCount s < f → ∀ x ∈ (expandLoop marked q f pending expanded s).1, ¬ M x) := by
  intro f
  induction f with
  | zero => exact fun pending expanded v s h _ sim e _ => ⟨v, .refl h sim, by rw [e]; simp [expandLoop], fun k => absurd k (by omega)⟩
  | succ f ih =>
    intro pending expanded v s h hN sim e hcl
    cases pending with
    | nil => exact ⟨v, .refl h sim, by rw [e]; simp [expandLoop], fun _ => hcl⟩
    | cons c l =>
      unfold expandLoop
      by_cases hc : M c
      · rw [if_pos (by simpa using (hmk c).2 hc)]
        obtain ⟨w, h1, h2, h3⟩ := openNode_went hM h hN sim hq hqm hc (a := a ++ expanded) (l := l ++ b) (by rw [e]; simp)
        obtain ⟨u, k1, k2, k3⟩ := ih ((s.n c).children ++ l) expanded w (openNode s q c) h1.good (h1.moved.len.trans hN) h1.sim (by rw [h2, h3]; simp) hcl
        refine ⟨u, h1.trans k1, k2, fun hf => k3 ?_⟩
        have := kidCount_open s q c
        simp only [List.length_append, List.length_cons] at hf ⊢
        omega
      · rw [if_neg (by simpa using fun k => hc ((hmk c).1 k))]
        obtain ⟨u, k1, k2, k3⟩ := ih l (expanded ++ [c]) v s h hN sim (by rw [e]; simp) fun x hx => by
          rcases List.mem_append.1 hx with hx | hx
          · exact hcl x hx
          · have : x = c := by simpa using hx
            exact this ▸ hc
        exact ⟨u, k1, k2, fun hf => k3 (by simp only [List.length_cons] at hf; omega)⟩

include hM in
theorem expandNode_went {marked nesting : List Nat} (hmk : ∀ x, x ∈ marked ↔ M x) {q : Nat} (hq : L q) (hqm : ¬ M q) {a b : List Nat} {c : Nat} (hc : M c) {v : View} {s : St}
    (h : v.Good L M N) (hN : s.heap.length = N) (sim : Sim q v s) (e : v.K q = a ++ c :: b) (hnest : c ∈ nesting ∨ ∀ x ∈ v.K c, ¬ M x) :
    ∃ w, Went L M N q v s w (expandNode marked nesting q c s).2 ∧ w.K q = a ++ (expandNode marked nesting q c s).1 ++ b ∧
      ∀ x ∈ (expandNode marked nesting q c s).1, ¬ M x := by
  obtain ⟨w, h1, h2, h3⟩ := openNode_went hM h hN sim hq hqm hc e
  unfold expandNode
  simp only
  by_cases hn : c ∈ nesting
  · rw [if_pos (by simpa using hn)]
    obtain ⟨u, k1, k2, k3⟩ := expandLoop_went hM hmk hq hqm a b ((s.n c).children.length + kidCount (openNode s q c) + 1) (s.n c).children [] w (openNode s q c) h1.good
      (h1.moved.len.trans hN) h1.sim (by rw [h2, h3]; simp) (by simp)
    exact ⟨u, h1.trans k1, k2, k3 (by omega)⟩
  · rw [if_neg (by simpa using hn)]
    exact ⟨w, h1, by rw [h2, h3], by rw [h3]; exact hnest.resolve_left hn⟩

include hM in
theorem expandAll_went {marked nesting : List Nat} (hmk : ∀ x, x ∈ marked ↔ M x) {q : Nat} (hq : L q) (hqm : ¬ M q) : ∀ (l projected : List Nat) (v : View) (s : St),
    v.Good L M N → s.heap.length = N → Sim q v s → v.K q = projected ++ l → (∀ x ∈ projected, ¬ M x) → (∀ c, M c → c ∈ nesting ∨ ∀ x ∈ v.K c, ¬ M x) →
    ∃ w, Went L M N q v s w (expandAll marked nesting q l projected s).2 ∧ w.K q = (expandAll marked nesting q l projected s).1 ∧
      ∀ x ∈ (expandAll marked nesting q l projected s).1, ¬ M x := by
  intro l
  induction l with
  | nil => exact fun projected v s h _ sim e hcl _ => ⟨v, .refl h sim, by rw [e]; simp [expandAll], hcl⟩
  | cons c l ih =>
    intro projected v s h hN sim e hcl hnest
    unfold expandAll
    by_cases hc : M c
    · rw [if_pos (by simpa using (hmk c).2 hc)]
      obtain ⟨w, h1, h2, h3⟩ := expandNode_went hM hmk hq hqm hc h hN sim e (hnest c hc)
      obtain ⟨u, k1, k2, k3⟩ := ih (projected ++ (expandNode marked nesting q c s).1) w _ h1.good (h1.moved.len.trans hN) h1.sim h2 (fun x hx => by
          rcases List.mem_append.1 hx with hx | hx
          · exact hcl x hx
          · exact h3 x hx) fun x hx => by
        rcases h1.shut x hx with e | e
        · rw [e]; exact hnest x hx
        · rw [e]; exact .inr (by simp)
      exact ⟨u, h1.trans k1, k2, k3⟩
    · rw [if_neg (by simpa using fun k => hc ((hmk c).1 k))]
      exact ih (projected ++ [c]) v s h hN sim (by rw [e]; simp) (fun x hx => by
        rcases List.mem_append.1 hx with hx | hx
        · exact hcl x hx
        · have : x = c := by simpa using hx
          exact this ▸ hc) hnest

end

/-! ### Finding the nodes that hold recorded nodes -/

/-- What is known when the recorded nodes in `d` have been looked at. -/
structure Found (s : St) (marked d : List Nat) (holders : List (Nat × Option Nat)) (nesting : List Nat) : Prop where
  nest : ∀ i ∈ d, ∀ p, (s.n i).parent = some p → p ∈ marked → p ∈ nesting
  hold : ∀ i ∈ d, ∀ p, (s.n i).parent = some p → p ∉ marked → ∃ h ∈ holders, h.1 = p
  only : ∀ h ∈ holders, ∀ c, h.2 = some c → c ∈ d ∧ ∀ i ∈ d, (s.n i).parent = some h.1 → i = c
  key : ∀ h ∈ holders, h.1 ∉ marked ∧ ∃ i ∈ d, (s.n i).parent = some h.1

theorem findHolders_found (s : St) (marked : List Nat) : ∀ (l d : List Nat) (holders : List (Nat × Option Nat)) (nesting : List Nat), Found s marked d holders nesting →
    Found s marked (d ++ l) (findHolders s marked l holders nesting).1 (findHolders s marked l holders nesting).2 := by
  intro l
  induction l with
  | nil => intro d H ne h; rw [List.append_nil]; exact h
  | cons i l ih =>
    intro d H ne h
    have e : d ++ i :: l = (d ++ [i]) ++ l := by simp
    rw [e]
    unfold findHolders
    have mem : ∀ {x : Nat}, x ∈ d ++ [i] → x ∈ d ∨ x = i := fun k => by simpa using k
    cases hp : (s.n i).parent with
    | none =>
      simp only
      refine ih _ _ _ ⟨fun x hx p hxp hm => ?_, fun x hx p hxp hm => ?_, fun t ht c hc => ?_, fun t ht => ?_⟩
      · rcases mem hx with hx | rfl
        · exact h.nest x hx p hxp hm
        · rw [hp] at hxp; nomatch hxp
      · rcases mem hx with hx | rfl
        · exact h.hold x hx p hxp hm
        · rw [hp] at hxp; nomatch hxp
      · obtain ⟨a, b⟩ := h.only t ht c hc
        refine ⟨by simp [a], fun x hx hxp => ?_⟩
        rcases mem hx with hx | rfl
        · exact b x hx hxp
        · rw [hp] at hxp; nomatch hxp
      · obtain ⟨a, x, hx, b⟩ := h.key t ht
        exact ⟨a, x, by simp [hx], b⟩
    | some p =>
      simp only
      by_cases hm : p ∈ marked
      · rw [if_pos (by simpa using hm)]
        refine ih _ _ _ ⟨fun x hx r hxp hr => ?_, fun x hx r hxp hr => ?_, fun t ht c hc => ?_, fun t ht => ?_⟩
        · rcases mem hx with hx | rfl
          · exact List.mem_cons_of_mem _ (h.nest x hx r hxp hr)
          · rw [hp] at hxp
            have : p = r := by simpa using hxp
            simp [this]
        · rcases mem hx with hx | rfl
          · exact h.hold x hx r hxp hr
          · rw [hp] at hxp
            have : p = r := by simpa using hxp
            exact absurd (this ▸ hm) hr
        · obtain ⟨a, b⟩ := h.only t ht c hc
          refine ⟨by simp [a], fun x hx hxp => ?_⟩
          rcases mem hx with hx | rfl
          · exact b x hx hxp
          · rw [hp] at hxp
            have : p = t.1 := by simpa using hxp
            exact absurd (this ▸ hm) (h.key t ht).1
        · obtain ⟨a, x, hx, b⟩ := h.key t ht
          exact ⟨a, x, by simp [hx], b⟩
      · rw [if_neg (by simpa using hm)]
        by_cases ha : H.any (fun t => t.1 = p) = true
        · rw [if_pos ha]
          have ha : ∃ t ∈ H, t.1 = p := by simpa using ha
          have map1 : ∀ t : Nat × Option Nat, (if t.1 = p then (p, none) else t : Nat × Option Nat).1 = t.1 := fun t => by split <;> simp_all
          refine ih _ _ _ ⟨fun x hx r hxp hr => ?_, fun x hx r hxp hr => ?_, fun t ht c hc => ?_, fun t ht => ?_⟩
          · rcases mem hx with hx | rfl
            · exact h.nest x hx r hxp hr
            · rw [hp] at hxp
              have : p = r := by simpa using hxp
              exact absurd (this ▸ hr) hm
          · have : ∃ t ∈ H, t.1 = r := by
              rcases mem hx with hx | rfl
              · exact h.hold x hx r hxp hr
              · rw [hp] at hxp
                have : p = r := by simpa using hxp
                exact this ▸ ha
            obtain ⟨t, ht, e⟩ := this
            exact ⟨_, List.mem_map.2 ⟨t, ht, rfl⟩, by rw [map1]; exact e⟩
          · obtain ⟨u, hu, rfl⟩ := List.mem_map.1 ht
            rw [map1]
            by_cases hup : u.1 = p
            · rw [if_pos hup] at hc; nomatch hc
            · rw [if_neg hup] at hc
              obtain ⟨a, b⟩ := h.only u hu c hc
              refine ⟨by simp [a], fun x hx hxp => ?_⟩
              rcases mem hx with hx | rfl
              · exact b x hx hxp
              · rw [hp] at hxp
                have : p = u.1 := by simpa using hxp
                exact absurd this.symm hup
          · obtain ⟨u, hu, rfl⟩ := List.mem_map.1 ht
            rw [map1]
            obtain ⟨a, x, hx, b⟩ := h.key u hu
            exact ⟨a, x, by simp [hx], b⟩
        · rw [if_neg ha]
          have ha : ∀ t ∈ H, t.1 ≠ p := by
            intro t ht e
            exact ha (by simp only [List.any_eq_true, decide_eq_true_eq]; exact ⟨t, ht, e⟩)
          refine ih _ _ _ ⟨fun x hx r hxp hr => ?_, fun x hx r hxp hr => ?_, fun t ht c hc => ?_, fun t ht => ?_⟩
          · rcases mem hx with hx | rfl
            · exact h.nest x hx r hxp hr
            · rw [hp] at hxp
              have : p = r := by simpa using hxp
              exact absurd (this ▸ hr) hm
          · rcases mem hx with hx | rfl
            · obtain ⟨t, ht, e⟩ := h.hold x hx r hxp hr
              exact ⟨t, by simp [ht], e⟩
            · rw [hp] at hxp
              have : p = r := by simpa using hxp
              exact ⟨(p, some x), by simp, this⟩
          · rcases List.mem_append.1 ht with ht | ht
            · obtain ⟨a, b⟩ := h.only t ht c hc
              refine ⟨by simp [a], fun x hx hxp => ?_⟩
              rcases mem hx with hx | rfl
              · exact b x hx hxp
              · rw [hp] at hxp
                have : p = t.1 := by simpa using hxp
                exact absurd this.symm (ha _ ‹t ∈ H›)
            · have : t = (p, some i) := by simpa using ht
              subst this
              have : i = c := by simpa using hc
              subst this
              refine ⟨by simp, fun x hx hxp => ?_⟩
              rcases mem hx with hx | rfl
              · obtain ⟨t, ht, e⟩ := h.hold x hx p hxp hm
                exact absurd e (ha t ht)
              · rfl
          · rcases List.mem_append.1 ht with ht | ht
            · obtain ⟨a, x, hx, b⟩ := h.key t ht
              exact ⟨a, x, by simp [hx], b⟩
            · have : t = (p, some i) := by simpa using ht
              subst this
              exact ⟨hm, i, by simp, hp⟩

section
variable {L M : Nat → Prop} {N : Nat} (hM : ∀ i, M i → L i)

/-- A node is put back with its new children. -/
theorem Sim.close {q : Nat} {w : View} {s : St} (sim : Sim q w s) (hq : q < s.heap.length) {f : ENode → ENode} (h1 : (f (s.n q)).children = w.K q)
    (h2 : ∀ n, (f n).parent = n.parent) : (s.upd q f).view = w := by
  have a : ∀ j, ((s.upd q f).n j).children = w.K j := fun j => by
    rw [n_upd]
    by_cases hj : q = j
    · subst hj; rw [if_pos ⟨rfl, hq⟩]; exact h1
    · rw [if_neg fun k => hj k.1]; exact sim.kids j fun k => hj k.symm
  have b : ∀ j, ((s.upd q f).n j).parent = w.P j := fun j => by rw [parent_upd _ _ _ f h2]; exact sim.par j
  show (⟨_, _⟩ : View) = w
  cases w
  simp only [View.mk.injEq]
  exact ⟨funext a, funext b⟩

theorem Sim.self (q : Nat) (s : St) : Sim q s.view s := ⟨fun _ _ => rfl, fun _ => rfl⟩

theorem findIdx_split {c : Nat} : ∀ {l : List Nat} {k : Nat}, l.findIdx? (fun x => x = c) = some k → l = l.take k ++ c :: l.drop (k + 1)
  | [], _, h => by simp at h
  | x :: l, k, h => by
    rw [List.findIdx?_cons] at h
    by_cases hx : x = c
    · simp [hx] at h
      subst h; simp [hx]
    · simp only [hx, decide_false, Bool.false_eq_true, if_false] at h
      cases hk : l.findIdx? (fun x => x = c) with
      | none => rw [hk] at h; nomatch h
      | some j =>
        rw [hk] at h
        have : j + 1 = k := by simpa using h
        subst this
        have := findIdx_split hk
        simp only [List.take_succ_cons, List.drop_succ_cons, List.cons_append]
        rw [← this]

include hM in
theorem unwrapHolder_went {marked nesting : List Nat} (hmk : ∀ x, x ∈ marked ↔ M x) {s : St} (h : s.view.Good L M N) (hN : s.heap.length = N) {q : Nat} (hq : L q) (hqm : ¬ M q)
    (o : Option Nat) (hnest : ∀ c, M c → c ∈ nesting ∨ ∀ x ∈ s.view.K c, ¬ M x) (ho : ∀ c, o = some c → M c ∧ ∀ x ∈ s.view.K q, M x → x = c) :
    Moved s (unwrapHolder marked nesting s (q, o)) ∧ View.Chain L M s.view (unwrapHolder marked nesting s (q, o)).view ∧ (unwrapHolder marked nesting s (q, o)).view.Good L M N ∧
      (∀ x, ¬ M x → x ≠ q → (unwrapHolder marked nesting s (q, o)).view.K x = s.view.K x) ∧
      (∀ x, M x → (unwrapHolder marked nesting s (q, o)).view.K x = s.view.K x ∨ (unwrapHolder marked nesting s (q, o)).view.K x = []) ∧
      ∀ x ∈ (unwrapHolder marked nesting s (q, o)).view.K q, ¬ M x := by
  cases o with
  | none =>
    obtain ⟨w, h1, h2, h3⟩ := expandAll_went (nesting := nesting) hM hmk hq hqm (s.n q).children [] s.view s h hN (Sim.self q s) rfl (by simp) hnest
    have e : (unwrapHolder marked nesting s (q, none)).view = w := by
      show ((expandAll marked nesting q (s.n q).children [] s).2.upd q fun n => { n with children := (expandAll marked nesting q (s.n q).children [] s).1 }).view = w
      by_cases hl : q < s.heap.length
      · exact h1.sim.close (by rw [h1.moved.len]; exact hl) h2.symm fun _ => rfl
      · have e0 : (s.n q).children = [] := by rw [n_ge s (Nat.not_lt.1 hl)]; rfl
        rw [e0] at h1 h2 ⊢
        rw [upd_ge _ _ (by rw [h1.moved.len]; omega)]
        have a : ∀ j, (s.n j).children = w.K j := fun j => by
          by_cases hj : j = q
          · subst hj; rw [e0, h2]; rfl
          · exact h1.sim.kids j hj
        show s.view = w
        cases w
        simp only [St.view, View.mk.injEq]
        exact ⟨funext a, funext h1.sim.par⟩
    refine ⟨h1.moved.trans (Moved.upd _ q (fun n => { n with children := (expandAll marked nesting q (s.n q).children [] s).1 }) fun _ => rfl), ?_⟩
    rw [e]
    exact ⟨h1.chain, h1.good, h1.off, h1.shut, by rw [h2]; exact h3⟩
  | some c =>
    obtain ⟨hc, honly⟩ := ho c rfl
    cases hk : (s.n q).children.findIdx? (fun x => x = c) with
    | none =>
      have e : unwrapHolder marked nesting s (q, some c) = { s with err := true } := by unfold unwrapHolder; simp only [hk]
      rw [e]
      refine ⟨⟨rfl, rfl, rfl⟩, .refl, h, fun _ _ _ => rfl, fun _ _ => .inl rfl, fun x hx hm => ?_⟩
      have : x = c := honly x hx hm
      subst this
      have := List.findIdx?_eq_none_iff.1 hk x hx
      simp at this
    | some k =>
      have hs := findIdx_split hk
      obtain ⟨w, h1, h2, h3⟩ := expandNode_went (nesting := nesting) hM hmk hq hqm hc h hN (Sim.self q s) hs (hnest c hc)
      have hmem : c ∈ (s.n q).children := by rw [hs]; simp
      have e : unwrapHolder marked nesting s (q, some c) = (expandNode marked nesting q c s).2.upd q fun n =>
          { n with children := n.children.take k ++ (expandNode marked nesting q c s).1 ++ n.children.drop (k + 1) } := by unfold unwrapHolder; simp only [hk]
      have ev : (unwrapHolder marked nesting s (q, some c)).view = w := by
        rw [e]
        exact h1.sim.close (by rw [h1.moved.len]; exact mem_lt hmem) (by rw [h2]; simp only; rw [h1.keep]) fun _ => rfl
      have hcount := (h.kids q hq c hmem).2.2.2
      have hcount : ((s.n q).children.take k ++ c :: (s.n q).children.drop (k + 1)).count c = 1 := by rw [← hs]; exact hcount
      rw [List.count_append, List.count_cons_self] at hcount
      refine ⟨by rw [e]; exact h1.moved.trans (Moved.upd _ q (fun n =>
          { n with children := n.children.take k ++ (expandNode marked nesting q c s).1 ++ n.children.drop (k + 1) }) fun _ => rfl), ?_⟩
      rw [ev]
      refine ⟨h1.chain, h1.good, h1.off, h1.shut, ?_⟩
      rw [h2]
      intro x hx hm
      rcases List.mem_append.1 hx with hx | hx
      · rcases List.mem_append.1 hx with hx | hx
        · have : x = c := honly x (List.mem_of_mem_take hx) hm
          exact List.count_eq_zero.1 (show (List.take k (s.n q).children).count c = 0 by omega) (this ▸ hx)
        · exact h3 x hx hm
      · have : x = c := honly x (List.mem_of_mem_drop hx) hm
        exact List.count_eq_zero.1 (show (List.drop (k + 1) (s.n q).children).count c = 0 by omega) (this ▸ hx)

end

section
variable {L M : Nat → Prop} {N : Nat} (hM : ∀ i, M i → L i)

include hM in
theorem unwrapBatch_view {s : St} (hmk : ∀ x, x ∈ s.toUnwrap ↔ M x) (h : s.view.Good L M s.heap.length) :
    Moved s (unwrapBatch s) ∧ View.Chain L M s.view (unwrapBatch s).view ∧ ∀ q, L q → ¬ M q → ∀ c ∈ (unwrapBatch s).view.K q, ¬ M c := by
  have hf : Found s s.toUnwrap s.toUnwrap (findHolders s s.toUnwrap s.toUnwrap [] []).1 (findHolders s s.toUnwrap s.toUnwrap [] []).2 := by
    have := findHolders_found s s.toUnwrap s.toUnwrap [] [] [] ⟨by simp, by simp, by simp, by simp⟩
    simpa using this
  have keyL : ∀ t ∈ (findHolders s s.toUnwrap s.toUnwrap [] []).1, L t.1 ∧ ¬ M t.1 := by
    intro t ht
    obtain ⟨a, i, hi, b⟩ := hf.key t ht
    exact ⟨h.par i ((hmk i).1 hi) _ b, fun k => a ((hmk _).2 k)⟩
  have hnest : ∀ c, M c → ∀ x ∈ s.view.K c, M x → c ∈ (findHolders s s.toUnwrap s.toUnwrap [] []).2 := fun c hc x hx hm =>
    hf.nest x ((hmk x).2 hm) c (h.kids c (hM c hc) x hx).2.2.1 ((hmk c).2 hc)
  have main : ∀ (l : List (Nat × Option Nat)) (t : St), (∀ u ∈ l, u ∈ (findHolders s s.toUnwrap s.toUnwrap [] []).1) →
      Moved s t → View.Chain L M s.view t.view → t.view.Good L M s.heap.length → (∀ x, M x → t.view.K x = s.view.K x ∨ t.view.K x = []) →
      (∀ x, ¬ M x → t.view.K x = s.view.K x ∨ ∀ c ∈ t.view.K x, ¬ M c) →
      Moved s (l.foldl (unwrapHolder s.toUnwrap (findHolders s s.toUnwrap s.toUnwrap [] []).2) t) ∧
      View.Chain L M s.view (l.foldl (unwrapHolder s.toUnwrap (findHolders s s.toUnwrap s.toUnwrap [] []).2) t).view ∧
      (∀ x, ¬ M x → (l.foldl (unwrapHolder s.toUnwrap (findHolders s s.toUnwrap s.toUnwrap [] []).2) t).view.K x = s.view.K x ∨
        ∀ c ∈ (l.foldl (unwrapHolder s.toUnwrap (findHolders s s.toUnwrap s.toUnwrap [] []).2) t).view.K x, ¬ M c) ∧
      (∀ x, ¬ M x → (∀ c ∈ t.view.K x, ¬ M c) → ∀ c ∈ (l.foldl (unwrapHolder s.toUnwrap (findHolders s s.toUnwrap s.toUnwrap [] []).2) t).view.K x, ¬ M c) ∧
      ∀ u ∈ l, ∀ c ∈ (l.foldl (unwrapHolder s.toUnwrap (findHolders s s.toUnwrap s.toUnwrap [] []).2) t).view.K u.1, ¬ M c := by
    intro l
    induction l with
    | nil => exact fun t _ m c _ _ g => ⟨m, c, g, fun _ _ k => k, fun u hu => absurd hu (by simp)⟩
    | cons u l ih =>
      obtain ⟨q, o⟩ := u
      intro t hl m c g sh un
      have hu := hl (q, o) (by simp)
      obtain ⟨hq, hqm⟩ := keyL _ hu
      obtain ⟨a1, a2, a3, a4, a5, a6⟩ := unwrapHolder_went hM hmk g m.len hq hqm o (nesting := (findHolders s s.toUnwrap s.toUnwrap [] []).2) (fun x hx => by
          by_cases hn : x ∈ (findHolders s s.toUnwrap s.toUnwrap [] []).2
          · exact .inl hn
          · right
            intro y hy hm
            rcases sh x hx with e | e
            · exact hn (hnest x hx y (e ▸ hy) hm)
            · rw [e] at hy; exact absurd hy (by simp)) fun x hx => by
        obtain ⟨k1, k2⟩ := hf.only _ hu x hx
        refine ⟨(hmk x).1 k1, fun y hy hm => ?_⟩
        rcases un q hqm with e | e
        · exact k2 y ((hmk y).2 hm) (h.kids q hq y (e ▸ hy)).2.2.1
        · exact absurd hm (e y hy)
      have un' : ∀ x, ¬ M x → ((unwrapHolder s.toUnwrap (findHolders s s.toUnwrap s.toUnwrap [] []).2 t (q, o)).view.K x = s.view.K x ∨
          ∀ c ∈ (unwrapHolder s.toUnwrap (findHolders s s.toUnwrap s.toUnwrap [] []).2 t (q, o)).view.K x, ¬ M c) := by
        intro x hx
        by_cases e : x = q
        · subst e; exact .inr a6
        · rw [a4 x hx e]; exact un x hx
      obtain ⟨b1, b2, b3, b4, b5⟩ := ih _ (fun u hu => hl u (by simp [hu])) (m.trans a1) (c.trans a2) a3 (fun x hx => by
        rcases a5 x hx with e | e
        · rw [e]; exact sh x hx
        · exact .inr e) un'
      refine ⟨b1, b2, b3, fun x hx k => b4 x hx ?_, fun u hu => ?_⟩
      · by_cases e : x = q
        · subst e; exact a6
        · rw [a4 x hx e]; exact k
      · rcases List.mem_cons.1 hu with rfl | hu
        · exact b4 q hqm a6
        · exact b5 u hu
  obtain ⟨m, c, g, _, k⟩ := main _ s (fun _ h => h) (.refl s) .refl h (fun _ _ => .inl rfl) fun _ _ => .inl rfl
  refine ⟨m, c, fun q hq hqm x hx hm => ?_⟩
  rcases g q hqm with e | e
  · have hx' : x ∈ s.view.K q := e ▸ hx
    obtain ⟨t, ht, ht2⟩ := hf.hold x ((hmk x).2 hm) q (h.kids q hq x hx').2.2.1 fun k => hqm ((hmk q).1 k)
    exact k t ht x (by rw [ht2]; exact hx) hm
  · exact e x hx hm

end

/-! ### The same tree -/

/-- The parents of the recorded nodes are there. -/
def Held (s : St) : Prop := ∀ i ∈ s.toUnwrap, ∀ p, (s.n i).parent = some p → Live s p

theorem Proper.good {s : St} (h : Proper s) (hp : Held s) : s.view.Good (Live s) (· ∈ s.toUnwrap) s.heap.length :=
  ⟨fun p hpl c hc => ⟨(h.kids p hpl c hc).1, .inl (h.kids p hpl c hc).2.1, ((h.kids p hpl c hc).2.2 trivial).1, ((h.kids p hpl c hc).2.2 trivial).2⟩, hp⟩

/-- Two states that look the same from the nodes in `G`, and only lead to nodes in `G`. -/
structure Alike (G : Nat → Prop) (s t : St) : Prop where
  moved : Moved s t
  kids : ∀ q, G q → (t.n q).children = (s.n q).children ∧ ∀ c ∈ (s.n q).children, G c
  cont : ∀ q c, (s.n q).content = some c → G c

theorem core_parts {a b : ENode} (h : a.core = b.core) : a.kind = b.kind ∧ a.name = b.name ∧ a.ns = b.ns ∧ a.attrs = b.attrs ∧ a.data = b.data ∧ a.doctype = b.doctype ∧ a.content = b.content := by
  cases a; cases b
  simp only [ENode.core, ENode.mk.injEq] at h
  simp_all

theorem Alike.tree {G : Nat → Prop} {s t : St} (h : Alike G s t) : ∀ f i, G i → treeF t f i = treeF s f i := by
  intro f
  induction f with
  | zero => exact fun _ _ => rfl
  | succ f ih =>
    intro i hi
    obtain ⟨h1, h2, h3, h4, h5, h6, h7⟩ := core_parts (h.moved.node i)
    have kids : (t.n i).children.map (treeF t f) = (s.n i).children.map (treeF s f) := by
      rw [(h.kids i hi).1]
      exact List.map_congr_left fun c hc => ih c ((h.kids i hi).2 c hc)
    have cont : (match (t.n i).content with | some c => (t.n c).children.map (treeF t f) | none => []) =
        (match (s.n i).content with | some c => (s.n c).children.map (treeF s f) | none => []) := by
      rw [h7]
      cases hc : (s.n i).content with
      | none => rfl
      | some c =>
        have hg := h.cont i c hc
        simp only
        rw [(h.kids c hg).1]
        exact List.map_congr_left fun d hd => ih d ((h.kids c hg).2 d hd)
    unfold treeF
    simp only
    rw [h1, h2, h3, h4, h5, h6]
    cases (s.n i).kind <;> simp only [kids] <;> first | rfl | skip
    rw [h7] at cont ⊢
    exact congrArg _ cont

theorem finishContext_eq (C : Cfg) (s : St) : (finishContext C s).2 = match s.ctxNode with
    | none => s
    | some c => if (s.n s.doc).children.contains c then
        (((s.setParents (s.n c).children s.doc).splice s.doc c (s.n c).children).upd c fun n => { n with children := [] }).upd c fun n => { n with parent := none } else s := by
  unfold finishContext
  cases s.ctxNode with
  | none => rfl
  | some c => simp only; split <;> rfl

theorem Moved.finishContext (C : Cfg) (s : St) : Moved s (finishContext C s).2 := by
  rw [finishContext_eq]
  cases s.ctxNode with
  | none => exact .refl s
  | some c =>
    simp only
    split
    · exact (Moved.setParents _ _ _).trans ((Moved.upd _ _ (fun n => { n with children := n.children.flatMap fun x => if x = c then (s.n c).children else [x] }) fun _ => rfl).trans
        ((Moved.upd _ _ (fun n => { n with children := [] }) fun _ => rfl).trans (Moved.upd _ _ (fun n => { n with parent := none }) fun _ => rfl)))
    · exact .refl s

theorem finishContext_children (C : Cfg) (s : St) {c : Nat} (hc : s.ctxNode = some c) (hm : (s.n s.doc).children.contains c = true) (hl : c < s.heap.length) (j : Nat) :
    ((finishContext C s).2.n j).children = if j = c then [] else if j = s.doc then (s.n s.doc).children.flatMap (fun x => if x = c then (s.n c).children else [x]) else (s.n j).children := by
  rw [finishContext_eq, hc]
  simp only
  rw [if_pos hm]
  have hd : s.doc < s.heap.length := mem_lt (List.contains_iff_mem.1 hm)
  have hp := parents_some s.doc (s.n c).children s
  have l1 : (s.setParents (s.n c).children s.doc).heap.length = s.heap.length := len_of_heads (heads_setParents _ _ _)
  have l2 : ((s.setParents (s.n c).children s.doc).splice s.doc c (s.n c).children).heap.length = s.heap.length := (len_upd _ _ _).trans l1
  rw [kids_upd _ _ _ (fun n => { n with parent := none }) fun _ => rfl, n_upd, l2]
  by_cases hj : j = c
  · subst hj; rw [if_pos ⟨rfl, hl⟩, if_pos rfl]
  · rw [if_neg fun k => hj k.1.symm, if_neg hj]
    unfold St.splice
    rw [n_upd, l1]
    by_cases hj2 : j = s.doc
    · subst hj2; rw [if_pos ⟨rfl, hd⟩, if_pos rfl]; simp only; rw [(hp _).1]
    · rw [if_neg fun k => hj2 k.1.symm, if_neg hj2, (hp j).1]

theorem Alike.finishContext {G : Nat → Prop} {s t : St} (C : Cfg) (h : Alike G s t) (hd : G s.doc) (hl : ∀ c ∈ (s.n s.doc).children, c < s.heap.length) :
    Alike G (Eng.finishContext C s).2 (Eng.finishContext C t).2 := by
  have hm : Moved (Eng.finishContext C s).2 (Eng.finishContext C t).2 := (Moved.finishContext C s).symm.trans (h.moved.trans (Moved.finishContext C t))
  have hcont : ∀ q c, ((Eng.finishContext C s).2.n q).content = some c → G c := fun q c k => by
    rw [(core_parts ((Moved.finishContext C s).node q)).2.2.2.2.2.2] at k
    exact h.cont q c k
  refine ⟨hm, fun q hq => ?_, hcont⟩
  cases hc : s.ctxNode with
  | none =>
    have hc' : t.ctxNode = none := by rw [h.moved.ctx, hc]
    rw [finishContext_eq, finishContext_eq, hc, hc']
    exact h.kids q hq
  | some c =>
    have hc' : t.ctxNode = some c := by rw [h.moved.ctx, hc]
    have hdt : (t.n t.doc).children = (s.n s.doc).children := by rw [h.moved.doc]; exact (h.kids s.doc hd).1
    by_cases hm : (s.n s.doc).children.contains c = true
    · have hmem := List.contains_iff_mem.1 hm
      have hg := (h.kids s.doc hd).2 c hmem
      rw [finishContext_children C s hc hm (hl c hmem), finishContext_children C t hc' (by rw [hdt]; exact hm) (by rw [h.moved.len]; exact hl c hmem), hdt, h.moved.doc,
        (h.kids c hg).1, (h.kids q hq).1]
      refine ⟨rfl, fun x hx => ?_⟩
      split at hx
      · exact absurd hx (by simp)
      · split at hx
        · rcases mem_splice.1 hx with ⟨k, _⟩ | ⟨_, k⟩
          · exact (h.kids s.doc hd).2 x k
          · exact (h.kids c hg).2 x k
        · exact (h.kids q hq).2 x hx
    · rw [finishContext_eq, finishContext_eq, hc, hc']
      simp only
      rw [if_neg hm, if_neg (by rw [hdt]; exact hm)]
      exact h.kids q hq

theorem unwrapAll_eq (C : Cfg) (s : St) : (unwrapAll C s).2 = (each unwrapOne s.toUnwrap.reverse C s).2 := rfl

/-- Two ways of unwrapping all recorded nodes end alike. -/
theorem Proper.alike {s t u : St} (h : Proper s) (hp : Held s) (hm : Moved s t) (hm' : Moved s u) (ch : View.Chain (Live s) (· ∈ s.toUnwrap) s.view t.view)
    (ch' : View.Chain (Live s) (· ∈ s.toUnwrap) s.view u.view) (ht : ∀ q, Live s q → q ∉ s.toUnwrap → ∀ c ∈ t.view.K q, c ∉ s.toUnwrap)
    (hu : ∀ q, Live s q → q ∉ s.toUnwrap → ∀ c ∈ u.view.K q, c ∉ s.toUnwrap) : Alike (fun q => Live s q ∧ q ∉ s.toUnwrap) t u := by
  have hM : ∀ i, i ∈ s.toUnwrap → Live s i := fun i hi => (h.recd i hi).2.1
  have hg := h.good hp
  refine ⟨hm.symm.trans hm', fun q hq => ⟨View.Chain.agree hM hg ch' ch hu ht hq.1 hq.2, fun c hc => ⟨?_, ht q hq.1 hq.2 c hc⟩⟩, fun q c hc => ?_⟩
  · exact (((ch.expand hM hg).1).kids q hq.1 c hc).2.1
  · rw [(core_parts (hm.node q)).2.2.2.2.2.2] at hc
    have := h.cont q c hc
    refine ⟨.inl this.2.1, fun k => ?_⟩
    exact (h.recd c k).2.2.1 this.2.2.2.1

/-- Unwrapping in any order. -/
theorem Proper.anyOrder {s : St} (h : Proper s) (hp : Held s) (C : Cfg) (l : List Nat) (hl : ∀ i, i ∈ l ↔ i ∈ s.toUnwrap) :
    Moved s (each unwrapOne l C s).2 ∧ View.Chain (Live s) (· ∈ s.toUnwrap) s.view (each unwrapOne l C s).2.view ∧
      ∀ q, Live s q → q ∉ s.toUnwrap → ∀ c ∈ (each unwrapOne l C s).2.view.K q, c ∉ s.toUnwrap := by
  have hM : ∀ i, i ∈ s.toUnwrap → Live s i := fun i hi => (h.recd i hi).2.1
  obtain ⟨a, b, _, d⟩ := unwrapEach_view (M := (· ∈ s.toUnwrap)) hM C l s (fun i hi => ⟨(hl i).1 hi, (h.recd i ((hl i).1 hi)).1⟩) (h.good hp)
  exact ⟨a, b, fun q hq _ c hc hm => d c ((hl c).2 hm) q hq hc⟩

end JH.Eng
