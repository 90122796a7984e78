import Verif.Props.DomForest
/-! C35, C63: clones. -/
namespace JH
open Spec

/-- The whole of the old heap has no pointer in or out after a clone, nor have the new nodes. -/
theorem old_iso {h h' : Heap} (i : Inv h) (w' : WF h') (g : Grow h h' (fun _ => False)) : Iso h' (· < h.next) := by
  refine (grow_framed i w' g ⟨?_, ?_, fun n hn => hn⟩).iso
  · intro n m hp; have := i.wf.lt_of_par hp; exact ⟨fun _ => this.2, fun _ => this.1⟩
  · intro t f hc; have := i.wf.cont_lt hc; exact ⟨fun _ => this.2, fun _ => this.1⟩

theorem new_iso {h h' : Heap} (i : Inv h) (w' : WF h') (g : Grow h h' (fun _ => False)) : Iso h' (fun n => h.next ≤ n ∧ n < h'.next) := by
  have o := old_iso i w' g
  refine ⟨?_, ?_, fun n hn => hn.2⟩
  · intro n m hp
    have h1 := w'.lt_of_par hp
    have h2 := o.par n m hp
    omega
  · intro t f hc
    have h1 := w'.cont_lt hc
    have h2 := o.cont t f hc
    omega

theorem framed_reads {h h' : Heap} {S : Nat → Prop} (f : Framed h h' S) {a : Nat} {t : Tree} (hr : ReadsIn h S a t) : ReadsIn h' S a t := by
  apply reads_mono (fun _ h => h) _ _ _ t a hr
  · intro n hn
    unfold Heap.label labelOf
    rw [f.obj n hn]
    have : ((h.obj n).attrs.map h'.dict) = ((h.obj n).attrs.map h.dict) := by
      rcases hd : (h.obj n).attrs with _ | d
      · rfl
      · simp only [Option.map_some]; rw [f.dict n d hn hd]
    rw [this]
  · intro n hn; unfold Heap.kids; rw [f.obj n hn]
  · intro n hn; unfold Heap.cont; rw [f.obj n hn]

/-- More steps do not change the result of a clone. -/
theorem cloneLoop_more (k : Nat) : ∀ (f : Nat) (h : Heap) (st : List (Nat × Nat)) (h' : Heap), Heap.cloneLoop f h st = some h' → Heap.cloneLoop (f + k) h st = some h' := by
  intro f
  induction f with
  | zero =>
    intro h st h' he
    cases st with
    | nil => simp only [Heap.cloneLoop] at he; cases he; cases (0 + k) <;> rfl
    | cons p st => simp [Heap.cloneLoop] at he
  | succ f ih =>
    intro h st h' he
    rw [show f + 1 + k = (f + k) + 1 from by omega]
    cases st with
    | nil => simp only [Heap.cloneLoop] at he; cases he; rfl
    | cons p st =>
      obtain ⟨s, t⟩ := p
      rw [Heap.cloneLoop] at he ⊢
      dsimp only at he ⊢
      split at he
      · rename_i e; rw [if_pos e]; exact ih _ _ _ he
      · rename_i e; rw [if_neg e]; exact ih _ _ _ he

theorem cloneNode_more (f k : Nat) {h h' : Heap} {a : Nat} {ov : Option Dict} {r : Option Nat} (he : h.cloneNode f a true ov = some (h', r)) :
    h.cloneNode (f + k) a true ov = some (h', r) := by
  unfold Heap.cloneNode at he ⊢
  simp only [if_true] at he ⊢
  rcases hl : Heap.cloneLoop f (h.shallow a none).1 [(a, (h.shallow a none).2)] with _ | h1
  · rw [hl] at he; cases he
  · rw [hl] at he
    rw [cloneLoop_more k _ _ _ _ hl]
    exact he

/-- C35. The deep clone of a tree reads the same as the tree: same structure, names, namespaces, attributes, data and template contents. It stands alone. -/
theorem C35_deep_clone_equal {h : Heap} (r : Reachable h) {a : Nat} {t : Tree} (ha : a < h.next) (ht : Reads h a t) (ov : Option Dict) :
    ∃ f0 h' c, (∀ fuel, f0 ≤ fuel → h.cloneNode fuel a true ov = some (h', some c)) ∧ Reads h' c t ∧ (h'.obj c).parent = none := by
  have i := reach_inv r
  obtain ⟨k, h', e, hr, hp⟩ := clone_reads i ha (reads_in i.wf ha ht) ov
  exact ⟨k, h', h.next, e, readsIn_reads t _ hr, hp⟩

/-- C35. A clone, deep or not, touches no existing node, and it and all nodes below it are new: no node of the old heap is one of them, and none of them
shares an attribute dict with an old node. -/
theorem C35_clone_is_new {h h' : Heap} (r : Reachable h) {fuel : Nat} {a c : Nat} (ha : a < h.next) {deep : Bool} {ov : Option Dict}
    (he : h.cloneNode fuel a deep ov = some (h', some c)) :
    (∀ n, n < h.next → Untouched h h' n) ∧ h.next ≤ c ∧ (∀ n, Inside h' c n → h.next ≤ n) ∧
      (∀ n d, h.next ≤ n → (h'.obj n).attrs = some d → h.nextDict ≤ d ∧ ∀ m, m < h.next → (h.obj m).attrs ≠ some d) := by
  have i := reach_inv r
  obtain ⟨i', g, e, hlt⟩ := cloneNode_inv i ha he
  injection e with e
  subst e
  have o := new_iso i i'.wf g
  refine ⟨?_, Nat.le_refl _, ?_, ?_⟩
  · intro n hn
    exact ⟨g.old n hn (fun h => h), fun d hd => g.dict d (i.shape.dlt n d hd)⟩
  · intro n hi
    have : ∀ x y, Inside h' x y → h.next ≤ x ∧ x < h'.next → h.next ≤ y ∧ y < h'.next := by
      intro x y hxy
      induction hxy with
      | @child x y l h1 h2 => intro hx; exact (o.par _ _ (i'.wf.back x y (by rw [kids_some h1]; exact h2))).2 hx
      | content h1 => intro hx; exact (o.cont _ _ h1).1 hx
      | trans _ _ ih1 ih2 => intro hx; exact ih2 (ih1 hx)
    exact (this _ _ hi ⟨Nat.le_refl _, hlt⟩).1
  · intro n d hn hd
    have h1 : h.nextDict ≤ d := by
      rcases Nat.lt_or_ge d h.nextDict with h1 | h1
      · have h2 := g.att n d h1 hd
        rw [i.wf.fresh n hn] at h2; cases h2
      · exact h1
    refine ⟨h1, ?_⟩
    intro m _ hm
    have := i.shape.dlt m d hm
    omega

/-- C35. Later calls that are given no node of the clone leave the clone as it is. -/
theorem C35_clone_unaffected_by_original {h h' h2 : Heap} (r : Reachable h) {fuel : Nat} {a c : Nat} {t : Tree} (ha : a < h.next) (ht : Reads h a t) {ov : Option Dict}
    (he : h.cloneNode fuel a true ov = some (h', some c))
    (hc : Calls (fun _ op => ∀ n ∈ op.operands, ¬ (h.next ≤ n ∧ n < h'.next)) h' h2) : Reads h2 c t := by
  have i := reach_inv r
  obtain ⟨k, h1, e, hr, -⟩ := clone_reads i ha (reads_in i.wf ha ht) ov
  obtain ⟨i', g, e1, hlt⟩ := cloneNode_inv i ha he
  injection e1 with e1
  subst e1
  have hh : h' = h1 := by
    have e2 := e (fuel + k) (by omega)
    have e3 := cloneNode_more fuel k he
    rw [e2] at e3
    simp only [Option.some.injEq, Prod.mk.injEq, and_true] at e3
    exact e3.symm
  subst hh
  exact readsIn_reads t _ (framed_reads (calls_framed hc i' (new_iso i i'.wf g)) hr)

/-- C35. Later calls that are given only nodes made by the clone, or later, leave every old node as it is; so the original reads as before. -/
theorem C35_original_unaffected_by_clone {h h' h2 : Heap} (r : Reachable h) {fuel : Nat} {a c : Nat} (ha : a < h.next) {deep : Bool} {ov : Option Dict}
    (he : h.cloneNode fuel a deep ov = some (h', some c))
    (hc : Calls (fun _ op => ∀ n ∈ op.operands, ¬ n < h.next) h' h2) :
    (∀ n, n < h.next → Untouched h h2 n) ∧ ∀ b t, b < h.next → Reads h b t → Reads h2 b t := by
  have i := reach_inv r
  obtain ⟨i', g, e1, hlt⟩ := cloneNode_inv i ha he
  have o := old_iso i i'.wf g
  have f0 : Framed h h' (· < h.next) := by
    refine grow_framed i i'.wf g ⟨?_, ?_, fun n hn => hn⟩
    · intro n m hp; have := i.wf.lt_of_par hp; exact ⟨fun _ => this.2, fun _ => this.1⟩
    · intro t f hc; have := i.wf.cont_lt hc; exact ⟨fun _ => this.2, fun _ => this.1⟩
  have f := framed_trans f0 (calls_framed hc i' o)
  exact ⟨fun n hn => ⟨f.obj n hn, fun d hd => f.dict n d hn hd⟩, fun b t hb hr => readsIn_reads t _ (framed_reads f (reads_in i.wf hb hr))⟩

/-- C63. A shallow clone has the given attributes, or a copy of the original's; no children, and new, empty template contents. -/
theorem C63_shallow_clone {h h' : Heap} (r : Reachable h) {fuel : Nat} {a c : Nat} (ha : a < h.next) {ov : Option Dict}
    (he : h.cloneNode fuel a false ov = some (h', some c)) :
    labelOf h' c = (if (h.obj a).kind = .element ∨ (h.obj a).kind = .template then { labelOf h a with attrs := ov.getD (labelOf h a).attrs } else labelOf h a) ∧
      (h'.obj c).children.getD [] = [] ∧ (h'.obj c).parent = none ∧
      (∀ f, (h'.obj c).content = some f → (h'.obj f).children = some [] ∧ (h'.obj f).parent = some c) := by
  have i := reach_inv r
  unfold Heap.cloneNode at he
  simp only [Bool.false_eq_true, if_false, Option.some.injEq, Prod.mk.injEq] at he
  obtain ⟨rfl, rfl⟩ := he
  have n := shallow_new h a ov
  generalize h.shallow a ov = x at n
  obtain ⟨h', b⟩ := x
  dsimp only at n ⊢
  refine ⟨?_, ?_, n.par, ?_⟩
  · unfold labelOf
    rw [n.kind, n.nm, n.nsp, n.dat, n.flags.1, n.flags.2]
    by_cases hk : (h.obj a).kind = .element ∨ (h.obj a).kind = .template
    · have hcon : (h.obj a).kind.container = true := by rcases hk with e | e <;> rw [e] <;> rfl
      rw [if_pos hk, if_pos hk, if_pos hk, n.att, if_pos hcon, Option.map_some, Option.getD_some, n.dic hcon]
      unfold Heap.cloneAttrs
      rw [if_pos hk]
      cases ov with
      | some d => rfl
      | none => cases (h.obj a).attrs <;> rfl
    · rw [if_neg hk, if_neg hk, if_neg hk]
  · rw [n.kids]; split <;> rfl
  · intro f hf
    rw [n.cont] at hf
    split at hf
    · rename_i ht
      injection hf with hf
      subst hf
      rw [(n.frag ht).2.1, n.eq]; exact ⟨rfl, rfl⟩
    · cases hf

/-- C63. A deep clone does not look at the override. -/
theorem C63_deep_clone_ignores_override {h : Heap} (fuel : Nat) (a : Nat) (d : Dict) : h.cloneNode fuel a true (some d) = h.cloneNode fuel a true none := rfl

/-- C63 is false of deep clones: the documented argument has no effect. `<div id="x">`, `clone_node(deep=True, override_attrs={})`. -/
theorem C63_deep_clone_override_fails : ∃ h h' a c, ∃ d : Dict, Reachable h ∧ a < h.next ∧ (h.obj a).kind = .element ∧
    h.cloneNode 20 a true (some d) = some (h', some c) ∧ (labelOf h' c).attrs ≠ d := by
  rcases hr : runDom 20 {} (sampleOps.take 1) with _ | h
  · exact absurd hr (by simp [runDom, sampleOps, Heap.step])
  · have e1 : (runDom 20 {} (sampleOps.take 1)).map (fun h => (decide (0 < h.next), (h.obj 0).kind)) = some (true, .element) := by decide
    have e2 : (runDom 20 {} (sampleOps.take 1)).bind (fun h => (h.cloneNode 20 0 true (some [])).bind fun r => r.2.map fun c => (labelOf r.1 c).attrs) = some [(c%"id", some c%"x")] := by decide
    rw [hr] at e1 e2
    simp only [Option.map_some, Option.some.injEq, Prod.mk.injEq, decide_eq_true_eq] at e1
    simp only [Option.bind_some] at e2
    rcases hc : h.cloneNode 20 0 true (some []) with _ | ⟨h', _ | c⟩
    · rw [hc] at e2; cases e2
    · rw [hc] at e2; cases e2
    · rw [hc] at e2
      simp only [Option.bind_some, Option.map_some, Option.some.injEq] at e2
      exact ⟨h, h', 0, c, [], runDom_calls (fun _ _ => trivial) (sampleOps.take 1) (.refl _) (by decide) hr, e1.1, e1.2, hc, by rw [e2]; simp⟩

/-- The hypotheses are met: `<div id=x><b></b><p>hi</p></div>` and its clone. -/
example : (runDom 20 {} (sampleOps.take 9)).bind (fun h => (h.cloneNode 20 0 true none).map fun r =>
    (r.2, [h.kids 0, h.kids 1, r.1.kids 5, r.1.kids 7], (r.1.obj 8).data))
    = some (some 5, [[4, 1], [2], [6, 7], [8]], some c%"hi") := by decide
/-- `clone_node(deep=True, override_attrs={"id": "y"})` keeps `id="x"`. -/
example : (runDom 20 {} (sampleOps.take 9)).bind (fun h => (h.cloneNode 20 0 true (some [(c%"id", some c%"y")])).map fun r => (r.1.obj 5).attrs.map r.1.dict)
    = some (some [(c%"id", some c%"x")]) := by decide
example : (runDom 20 {} (sampleOps.take 9)).bind (fun h => (h.cloneNode 20 0 false (some [(c%"id", some c%"y")])).map fun r => (r.1.obj 5).attrs.map r.1.dict)
    = some (some [(c%"id", some c%"y")]) := by decide

end JH
