import Verif.Model.EngMain

/-! Looking up nodes, and what never changes of a node: its kind, name and namespace. -/
namespace JH.Eng

theorem take_length_append {α : Type} (l : List α) (x : α) : l.take l.length ++ x :: l.drop l.length = l ++ [x] := by simp

theorem linkLast_eq (s : St) (p c : Nat) : s.linkLast p c = s.link p (s.n p).children.length c := by
  unfold St.linkLast St.link St.upd
  simp only [take_length_append]

/-! ### Looking up nodes -/

theorem n_add_lt (s : St) (n : ENode) {i : Nat} (h : i < s.heap.length) : (s.add n).n i = s.n i := by
  unfold St.add St.n
  simp [List.getD_eq_getElem?_getD, List.getElem?_append_left h]

theorem n_add_eq (s : St) (n : ENode) : (s.add n).n s.heap.length = n := by
  unfold St.add St.n
  simp [List.getD_eq_getElem?_getD]

theorem n_ge (s : St) {i : Nat} (h : s.heap.length ≤ i) : s.n i = default := by
  unfold St.n
  simp [List.getD_eq_getElem?_getD, List.getElem?_eq_none h]

theorem n_upd (s : St) (i j : Nat) (f : ENode → ENode) : (s.upd i f).n j = if i = j ∧ i < s.heap.length then f (s.n i) else s.n j := by
  unfold St.upd St.n
  simp only [List.getD_eq_getElem?_getD, List.getElem?_set]
  by_cases h : i = j
  · subst h
    by_cases h2 : i < s.heap.length
    · simp [h2]
    · simp [h2, List.getElem?_eq_none (Nat.not_lt.1 h2)]
  · simp [h]

theorem n_upd_ne (s : St) {i j : Nat} (f : ENode → ENode) (h : i ≠ j) : (s.upd i f).n j = s.n j := by rw [n_upd, if_neg (fun x => h x.1)]

theorem n_upd_self (s : St) {i : Nat} (f : ENode → ENode) (h : i < s.heap.length) : (s.upd i f).n i = f (s.n i) := by rw [n_upd, if_pos ⟨rfl, h⟩]

theorem len_upd (s : St) (i : Nat) (f : ENode → ENode) : (s.upd i f).heap.length = s.heap.length := by
  unfold St.upd; simp

theorem len_add (s : St) (n : ENode) : (s.add n).heap.length = s.heap.length + 1 := by
  unfold St.add; simp

theorem upd_ge (s : St) {i : Nat} (f : ENode → ENode) (h : s.heap.length ≤ i) : s.upd i f = s := by
  unfold St.upd
  rw [List.set_eq_of_length_le h]

/-- Kind, name and namespace of a node. -/
def ENode.head (n : ENode) : Kind × Str × Option Str := (n.kind, n.name, n.ns)

/-- Kind, name and namespace of all nodes. -/
def St.heads (s : St) : List (Kind × Str × Option Str) := s.heap.map ENode.head

theorem heads_upd (s : St) (i : Nat) (f : ENode → ENode) (h : ∀ n, (f n).head = n.head) : (s.upd i f).heads = s.heads := by
  unfold St.heads St.upd
  simp only
  refine List.ext_getElem? fun j => ?_
  rw [List.getElem?_map, List.getElem?_map, List.getElem?_set]
  by_cases hj : i = j
  · subst hj
    by_cases hl : i < s.heap.length
    · rw [if_pos rfl, if_pos hl]
      simp [h, St.n, List.getD_eq_getElem?_getD, List.getElem?_eq_getElem hl]
    · rw [if_pos rfl, if_neg hl, List.getElem?_eq_none (Nat.not_lt.1 hl)]
  · rw [if_neg hj]

theorem heads_two (s : St) (i j : Nat) (f g : ENode → ENode) (h : ∀ n, (f n).head = n.head) (k : ∀ n, (g n).head = n.head) :
    ((s.upd i f).upd j g).heads = s.heads := (heads_upd _ _ _ k).trans (heads_upd _ _ _ h)

theorem heads_upd' {s t : St} (i : Nat) (f : ENode → ENode) (h : ∀ n, (f n).head = n.head) (k : t.heads = s.heads) : (t.upd i f).heads = s.heads :=
  (heads_upd _ _ _ h).trans k

theorem heads_link (s : St) (p pos c : Nat) : (s.link p pos c).heads = s.heads :=
  heads_two _ _ _ _ _ (fun _ => rfl) fun _ => rfl

theorem heads_linkLast (s : St) (p c : Nat) : (s.linkLast p c).heads = s.heads :=
  heads_two _ _ _ _ _ (fun _ => rfl) fun _ => rfl

theorem heads_append (s : St) (p c : Nat) : (s.append p c).heads = s.heads := by
  unfold St.append
  split
  · split
    · exact heads_upd _ _ _ fun _ => rfl
    · exact heads_linkLast _ _ _
  · exact heads_linkLast _ _ _

theorem heads_detach (s : St) (c : Nat) : (s.detach c).heads = s.heads := by
  unfold St.detach
  split
  · rfl
  · split
    · exact heads_two _ _ _ _ _ (fun _ => rfl) fun _ => rfl
    · rfl

theorem heads_foldl {f : St → Nat → St} (h : ∀ s c, (f s c).heads = s.heads) (l : List Nat) : ∀ s, (l.foldl f s).heads = s.heads := by
  induction l with
  | nil => exact fun _ => rfl
  | cons x l ih => exact fun s => (ih _).trans (h s x)

theorem heads_moveChildren (s : St) (a b : Nat) : (s.moveChildren a b).heads = s.heads :=
  (heads_foldl (f := fun s c => s.appendMoved b c) (fun s c => heads_linkLast s _ c) _ _).trans (heads_upd _ _ _ fun _ => rfl)

theorem heads_clearBody (s : St) : s.clearBody.heads = s.heads :=
  heads_upd' _ _ (fun _ => rfl) (heads_foldl (f := fun s c => s.upd c fun n => { n with parent := none }) (fun s c => heads_upd s c _ fun _ => rfl) _ _)

theorem heads_of {s t : St} (h : t.heap = s.heap) : t.heads = s.heads := by unfold St.heads; rw [h]

theorem heads_add (s : St) (n : ENode) : (s.add n).heads = s.heads ++ [n.head] := by simp [St.heads, St.add]

/-- Kind, name, namespace and attributes of a node. -/
def ENode.full (n : ENode) : (Kind × Str × Option Str) × Attrs := (n.head, n.attrs)

/-- Kind, name, namespace and attributes of all nodes. -/
def St.fulls (s : St) : List ((Kind × Str × Option Str) × Attrs) := s.heap.map ENode.full

theorem heads_fulls (s : St) : s.heads = s.fulls.map Prod.fst := by
  unfold St.heads St.fulls
  rw [List.map_map]
  rfl

theorem fulls_upd (s : St) (i : Nat) (f : ENode → ENode) (h : ∀ n, (f n).full = n.full) : (s.upd i f).fulls = s.fulls := by
  unfold St.fulls St.upd
  simp only
  refine List.ext_getElem? fun j => ?_
  rw [List.getElem?_map, List.getElem?_map, List.getElem?_set]
  by_cases hj : i = j
  · subst hj
    by_cases hl : i < s.heap.length
    · rw [if_pos rfl, if_pos hl]
      simp [h, St.n, List.getD_eq_getElem?_getD, List.getElem?_eq_getElem hl]
    · rw [if_pos rfl, if_neg hl, List.getElem?_eq_none (Nat.not_lt.1 hl)]
  · rw [if_neg hj]

theorem fulls_two (s : St) (i j : Nat) (f g : ENode → ENode) (h : ∀ n, (f n).full = n.full) (k : ∀ n, (g n).full = n.full) :
    ((s.upd i f).upd j g).fulls = s.fulls := (fulls_upd _ _ _ k).trans (fulls_upd _ _ _ h)

theorem fulls_upd' {s t : St} (i : Nat) (f : ENode → ENode) (h : ∀ n, (f n).full = n.full) (k : t.fulls = s.fulls) : (t.upd i f).fulls = s.fulls :=
  (fulls_upd _ _ _ h).trans k

theorem fulls_link (s : St) (p pos c : Nat) : (s.link p pos c).fulls = s.fulls :=
  fulls_two _ _ _ _ _ (fun _ => rfl) fun _ => rfl

theorem fulls_linkLast (s : St) (p c : Nat) : (s.linkLast p c).fulls = s.fulls :=
  fulls_two _ _ _ _ _ (fun _ => rfl) fun _ => rfl

theorem fulls_append (s : St) (p c : Nat) : (s.append p c).fulls = s.fulls := by
  unfold St.append
  split
  · split
    · exact fulls_upd _ _ _ fun _ => rfl
    · exact fulls_linkLast _ _ _
  · exact fulls_linkLast _ _ _

theorem fulls_detach (s : St) (c : Nat) : (s.detach c).fulls = s.fulls := by
  unfold St.detach
  split
  · rfl
  · split
    · exact fulls_two _ _ _ _ _ (fun _ => rfl) fun _ => rfl
    · rfl

theorem fulls_foldl {f : St → Nat → St} (h : ∀ s c, (f s c).fulls = s.fulls) (l : List Nat) : ∀ s, (l.foldl f s).fulls = s.fulls := by
  induction l with
  | nil => exact fun _ => rfl
  | cons x l ih => exact fun s => (ih _).trans (h s x)

theorem fulls_moveChildren (s : St) (a b : Nat) : (s.moveChildren a b).fulls = s.fulls :=
  (fulls_foldl (f := fun s c => s.appendMoved b c) (fun s c => fulls_linkLast s _ c) _ _).trans (fulls_upd _ _ _ fun _ => rfl)

theorem fulls_clearBody (s : St) : s.clearBody.fulls = s.fulls :=
  fulls_upd' _ _ (fun _ => rfl) (fulls_foldl (f := fun s c => s.upd c fun n => { n with parent := none }) (fun s c => fulls_upd s c _ fun _ => rfl) _ _)

theorem fulls_of {s t : St} (h : t.heap = s.heap) : t.fulls = s.fulls := by unfold St.fulls; rw [h]

theorem fulls_add (s : St) (n : ENode) : (s.add n).fulls = s.fulls ++ [n.full] := by simp [St.fulls, St.add]

/-- The nodes that the stack can be reset to. -/
def Fixed (s : St) (i : Nat) : Prop := i = s.doc ∨ i = s.html.getD s.doc ∨ i = s.head.getD s.doc ∨ i = s.body

/-- Not one of the parser's own templates, unless it is open. -/
def Live (s : St) (i : Nat) : Prop := (s.n i).ns ≠ poNs ∨ i ∈ s.stack

end JH.Eng
