import Verif.Lemmas.EngStep

/-! The tree operations consist of primitive changes. -/
namespace JH.Eng

section
variable {C : Cfg}

theorem textLeaf (C : Cfg) (d : Str) : LeafOk C (textNode d) := ⟨rfl, rfl, rfl, rfl, .inl rfl⟩

theorem Vis.ok {d : Str} [h : Vis C d] : TextOk C (textNode d) := fun _ => h

theorem vis_of {t : Str} (h : Spec.ShowsAll t) : Vis C t := ⟨fun _ => .inr h⟩

theorem Vis.sub {a b : Str} (h : Vis C a) (k : ∀ c ∈ b, c ∈ a) : Vis C b := ⟨fun hs => (h.out hs).imp id fun h c hc => h c (k c hc)⟩

instance vis_append (a b : Str) [h : Vis C a] [k : Vis C b] : Vis C (a ++ b) := ⟨fun hs => by
  rcases h.out hs with h | h
  · exact .inl h
  rcases k.out hs with k | k
  · exact .inl k
  exact .inr fun c hc => (List.mem_append.1 hc).elim (h c) (k c)⟩

theorem isText_kind {s : St} {i : Nat} (h : s.isText i = true) : (s.n i).kind = .text := by simpa [St.isText] using h

theorem joinVis {s : St} {n : ENode} (h : TextOk C n) (hk : (s.add n).isText s.heap.length = true) : Vis C ((s.add n).n s.heap.length).data := by
  have hk := isText_kind hk
  rw [n_add_eq] at hk ⊢
  exact h hk

/-- Where a new node may go. -/
theorem older_ok (s : St) (p c : Nat) : s.older p c < c ∨ s.heap.length ≤ s.older p c := by
  unfold St.older
  split
  · next h => exact .inl h
  · exact .inr (Nat.le_refl _)

theorem leaf_kind {n : ENode} (h : LeafOk C n) : n.kind ≠ .element ∧ n.kind ≠ .template ∧ n.kind ≠ .fragment := by
  rcases h.2.2.2.2 with k | k | k
  · rw [k]; decide
  · rcases k.1 with k | k <;> (rw [k]; decide)
  · rw [k.1]; decide

theorem leaf_grows {s : St} {n : ENode} (h1 : n.children = []) (h2 : n.content = none) : Grows s (s.add n) [n] := by
  refine ⟨rfl, by simpa using h1, rfl, rfl, rfl, fun i c hi hc => ?_⟩
  exfalso
  rcases Nat.lt_or_ge i (s.add n).heap.length with k | k
  · have := n_grow' (s := s) (t := s.add n) (l := [n]) rfl hi k
    simp only [List.mem_singleton] at this
    rw [this, h2] at hc; exact absurd hc (by simp)
  · rw [n_ge _ k] at hc; exact absurd hc (by simp [default, instInhabitedENode, instInhabitedENode.default])

theorem leaf_tidy {s : St} (h : Tidy s) {n : ENode} (h1 : n.children = []) (h2 : n.content = none) (h3 : n.kind ≠ .fragment) (h4 : n.ns ≠ poNs) :
    Tidy (s.add n) ∧ Fresh (s.add n) s.heap.length ∧ Loose (Live (s.add n)) (s.add n) s.heap.length := by
  have g := leaf_grows (s := s) h1 h2
  obtain ⟨k1, k2⟩ := h.grow g
  exact ⟨k1, g.fresh h (by rw [len_add]; omega) (by rw [n_add_eq]; exact h3) (by rw [n_add_eq]; exact h4), k2 _ (Nat.le_refl _)⟩

theorem leafLink_tidy {s : St} (h : Tidy s) {n : ENode} (hn : LeafOk C n) (p pos : Nat) (hp : p < s.heap.length ∨ (s.add n).heap.length ≤ p) :
    Tidy ((s.add n).link p pos s.heap.length) := by
  obtain ⟨k1, k2, k3⟩ := leaf_tidy h hn.1 hn.2.2.1 (leaf_kind hn).2.2 (by rw [hn.2.2.2.1]; simp [poNs])
  exact (k1.linkNew k2 k3 p pos hp).1

theorem leaf_steps (s : St) (n : ENode) (p pos : Nat) (h : LeafOk C n) (k : TextOk C n) (hp : Tidy s → p < s.heap.length ∨ (s.add n).heap.length ≤ p) :
    Steps C s ((s.add n).link p pos s.heap.length) := .one (.leaf n p pos h k) fun x => leafLink_tidy x h p pos (hp x)

theorem garbage_steps (s : St) (n : ENode) (h : LeafOk C n) (k : TextOk C n) : Steps C s (s.add n) :=
  .one (.garbage n h k) fun x => (leaf_tidy x h.1 h.2.2.1 (leaf_kind h).2.2 (by rw [h.2.2.2.1]; simp [poNs])).1

theorem data_steps (s : St) (i : Nat) (f : Str → Str) (h : (s.n i).kind = .text) (k : ∀ t, Vis C t → Vis C (f t)) : Steps C s (s.upd i fun n => { n with data := f n.data }) :=
  .one (.data i f h k) fun x => x.data i _ (fun _ => rfl) (fun _ => rfl) (fun _ => rfl) fun _ => rfl

theorem append_steps (s : St) (p : Nat) (n : ENode) (h : LeafOk C n) (k : TextOk C n) (hp : p < s.heap.length ∨ (s.add n).heap.length ≤ p) :
    Steps C s ((s.add n).append p s.heap.length) := by
  have hl : Steps C s ((s.add n).linkLast p s.heap.length) := by
    rw [linkLast_eq]; exact leaf_steps s n p _ h k fun _ => hp
  unfold St.append
  split
  · next l hl' =>
    split
    · next ht =>
      rw [Bool.and_eq_true] at ht
      exact (garbage_steps s n h k).trans (data_steps _ l (· ++ ((s.add n).n s.heap.length).data) (isText_kind ht.2) (fun t ht' => have := joinVis k ht.1; vis_append _ _))
    · exact hl
  · exact hl

theorem insertAt_steps (s : St) (p pos : Nat) (n : ENode) (h : LeafOk C n) (k : TextOk C n) : Steps C s ((s.add n).insertAt p pos s.heap.length) := by
  unfold St.insertAt
  simp only
  split
  · next ht =>
    simp only [Bool.and_eq_true] at ht
    exact (garbage_steps s n h k).trans (data_steps _ _ (· ++ ((s.add n).n s.heap.length).data) (isText_kind ht.2) (fun t ht' => have := joinVis k ht.1.1.1; vis_append _ _))
  · split
    · next ht =>
      simp only [Bool.and_eq_true] at ht
      exact (garbage_steps s n h k).trans (data_steps _ _ (((s.add n).n s.heap.length).data ++ ·) (isText_kind ht.2) (fun t ht' => have := joinVis k ht.1.1; vis_append _ _))
    · exact leaf_steps s n _ _ h k fun _ => older_ok _ _ _

theorem appendNew_does {p : Nat} {n : ENode} (h : LeafOk C n) (k : TextOk C n) : Does C (appendNew p n) := ⟨fun s => append_steps s _ n h k (older_ok _ _ _)⟩

instance (p : Nat) (d : Str) [Vis C d] : Does C (appendNew p (textNode d)) := appendNew_does (textLeaf C d) Vis.ok

instance : Vis C [] := vis_of fun _ h => absurd h (by simp)

instance (p : Nat) : Does C (appendBoundary p) := ⟨fun s => by
  show Steps C s ((s.add (textNode [])).linkLast ((s.add (textNode [])).older p s.heap.length) s.heap.length)
  rw [linkLast_eq]; exact leaf_steps s _ _ _ (textLeaf C []) Vis.ok fun _ => older_ok _ _ _⟩

instance (g i : Nat) (t : Str) [Vis C t] : Does C (fun _ s => ((), (s.add (textNode t)).insertAt g i s.heap.length) : EM Unit) :=
  ⟨fun s => insertAt_steps s g i _ (textLeaf C t) Vis.ok⟩

/-! ### New elements -/

theorem isText_insertAt (s : St) (p pos c : Nat) (h : (s.n c).kind ≠ .text) : s.insertAt p pos c = s.link (s.older p c) pos c := by
  have : s.isText c = false := by simp [St.isText, h]
  unfold St.insertAt
  simp [this]

/-- The state with a new element linked somewhere. -/
def put (s : St) (n : ENode) (l : List ENode) (p pos : Nat) (u d sel : Bool) : St :=
  { ({ s with heap := s.heap ++ n :: l } : St).link p pos s.heap.length with
    toUnwrap := s.toUnwrap ++ if u then [s.heap.length] else []
    toDrop := s.toDrop ++ if d then [s.heap.length] else []
    hasSelected := s.hasSelected || sel }

theorem NewEl.kind {f : List (Option FEntry)} {i : Nat} {n : ENode} {l : List ENode} (h : NewEl C f i n l) : n.kind ≠ .text := by
  cases h <;> simp [elementNode]

theorem n_heap_append (s : St) (n : ENode) (l : List ENode) : ({ s with heap := s.heap ++ n :: l } : St).n s.heap.length = n := by
  unfold St.n
  simp [List.getD_eq_getElem?_getD]

theorem NewEl.grows {s : St} {n : ENode} {l : List ENode} (h : NewEl C s.fmt s.heap.length n l) : Grows s { s with heap := s.heap ++ n :: l } (n :: l) := by
  have hnn := n_heap_append s n l
  refine ⟨rfl, ?_, rfl, rfl, rfl, fun i c hi hc => ?_⟩
  · cases h with
    | plain => simp [elementNode]
    | template => simp
  · rcases Nat.lt_or_ge i ({ s with heap := s.heap ++ n :: l } : St).heap.length with k | k
    · by_cases hie : i = s.heap.length
      · subst hie
        rw [hnn] at hc ⊢
        cases h with
        | plain => simp [elementNode] at hc
        | template attrs =>
          simp only [Option.some.injEq] at hc
          subst hc
          simp [St.n, List.getD_eq_getElem?_getD, poNs]
      · exfalso
        cases h with
        | plain => simp at k; omega
        | template attrs =>
          have : i = s.heap.length + 1 := by simp at k; omega
          subst this
          simp [St.n, List.getD_eq_getElem?_getD] at hc
    · rw [n_ge _ k] at hc; exact absurd hc (by simp [default, instInhabitedENode, instInhabitedENode.default])

theorem NewEl.ns {f : List (Option FEntry)} {i : Nat} {n : ENode} {l : List ENode} (h : NewEl C f i n l) : n.ns ≠ poNs := by
  cases h with
  | plain name attrs ns h1 => intro k; exact h1 (by simpa [elementNode, poNs] using k)
  | template attrs => simp [poNs]

theorem NewEl.notFragment {f : List (Option FEntry)} {i : Nat} {n : ENode} {l : List ENode} (h : NewEl C f i n l) : n.kind ≠ .fragment := by
  cases h <;> simp [elementNode]

theorem put_tidy {s : St} (h : Tidy s) {n : ENode} {l : List ENode} (hn : NewEl C s.fmt s.heap.length n l) (p pos : Nat) (u d sel : Bool)
    (hp : p < s.heap.length ∨ s.heap.length + l.length + 1 ≤ p) : Tidy (put s n l p pos u d sel) ∧ Fresh (put s n l p pos u d sel) s.heap.length := by
  have g := hn.grows
  obtain ⟨k1, k2⟩ := h.grow g
  have hlen : ({ s with heap := s.heap ++ n :: l } : St).heap.length = s.heap.length + l.length + 1 := by simp; omega
  have f := g.fresh h (by omega) (by rw [n_heap_append]; exact hn.notFragment) (by rw [n_heap_append]; exact hn.ns)
  obtain ⟨k3, k4⟩ := k1.linkNew f (k2 _ (Nat.le_refl _)) p pos (by rw [hlen]; exact hp)
  exact ⟨k3.core rfl, k4.core rfl⟩

/-- Placing a new element. -/
theorem place_eq (s : St) (parent : Nat) (foster : Option (Nat × Nat)) (c : Nat) (h : (s.n c).kind ≠ .text) :
    ∃ p pos, (p < c ∨ s.heap.length ≤ p) ∧ (placeNew parent foster c C s).2 = s.link p pos c := by
  show ∃ p pos, _ ∧ (match foster with | none => s.linkLast (s.older parent c) c | some (g, i) => s.insertAt g i c) = s.link p pos c
  cases foster with
  | none => exact ⟨_, _, older_ok s parent c, linkLast_eq s _ c⟩
  | some f => exact ⟨_, f.2, older_ok s f.1 c, isText_insertAt s _ _ _ h⟩

theorem push_step {s : St} {i : Nat} (h : i < s.heap.length) (hns : (s.n i).ns ≠ poNs) : Step C s { s with stack := s.stack ++ [i] } := by
  refine .stack _ fun j => ?_
  by_cases hj : j = i
  · subst hj; exact .inr (.inr (.inr (.inr (.inr ⟨h, hns⟩))))
  · left
    rw [List.count_append]
    have : List.count j [i] = 0 := List.count_eq_zero_of_not_mem (by simpa using hj)
    omega

end

end JH.Eng
