import Verif.Props.DomForest
/-! C61: what the calls do, and when they raise. -/
namespace JH
open Spec

theorem children_of_kids {h : Heap} {n : Nat} (hs : (h.obj n).children.isSome = true) : (h.obj n).children = some (h.kids n) := by
  unfold Heap.kids
  rcases hc : (h.obj n).children with _ | l
  · rw [hc] at hs; cases hs
  · rfl

theorem skin_label {h h' : Heap} (hd : h'.dict = h.dict) {n : Nat}
    (hs : { h'.obj n with parent := none, children := none } = { h.obj n with parent := none, children := none }) :
    labelOf h' n = labelOf h n ∧ (h'.obj n).content = (h.obj n).content := by
  obtain ⟨h1, h2, h3, h4, h5, h6, h7, h8⟩ := skin_knd hs
  refine ⟨?_, h2⟩
  unfold labelOf
  rw [h1, h3, h4, h5, h6, h7, h8, hd]

theorem placed_moved {h h' : Heap} {s node : Nat} {a b : List Nat} (hs : (h.obj s).children.isSome = true) (p : Placed h h' s node a b) : MovedTo h h' s node a b := by
  refine ⟨?_, ?_, ?_, ?_, ?_⟩
  · rw [children_of_kids (by rw [p.some]; exact hs), p.kids, if_pos rfl]
  · intro q l hq hl
    rw [children_of_kids (by rw [p.some, hl]; rfl), p.kids, if_neg hq, kids_some hl]
  · have := p.par node; rw [if_pos rfl] at this; exact this
  · intro n hn; have := p.par n; rw [if_neg hn] at this; exact this
  · intro n; exact skin_label p.dict.1 (p.skin n)

theorem spliced_poured {h h' : Heap} {s frag : Nat} {a b : List Nat} (hs : (h.obj s).children.isSome = true) (hf : (h.obj frag).children.isSome = true)
    (hne : s ≠ frag) (p : Spliced h h' s frag a b) : Poured h h' s frag (h.kids frag) a b := by
  refine ⟨?_, ?_, ?_, ?_, ?_, ?_⟩
  · rw [children_of_kids (by rw [p.some]; exact hs), p.kids, if_pos rfl]
  · rw [children_of_kids (by rw [p.some]; exact hf), p.kids, if_neg (Ne.symm hne), if_pos rfl]
  · intro q l hq hq2 hl
    rw [children_of_kids (by rw [p.some, hl]; rfl), p.kids, if_neg hq, if_neg hq2, kids_some hl]
  · intro n hn; have := p.par n; rw [if_pos hn] at this; exact this
  · intro n hn hn2; have := p.par n; rw [if_neg hn, if_neg hn2] at this; exact this
  · intro n; exact skin_label p.dict.1 (p.skin n)

theorem detached_taken {h h' : Heap} {s node : Nat} {a b : List Nat} (w : WF h) (hl : (h.obj s).children = some (a ++ node :: b)) (d : Detached h h' node) :
    TakenOut h h' s node a b := by
  have hk : h.kids s = a ++ node :: b := kids_some hl
  have hn := w.once s
  rw [hk] at hn
  refine ⟨?_, ?_, ?_, ?_, ?_⟩
  · rw [children_of_kids (by rw [d.some, hl]; rfl), d.kids, hk, filter_ne_split hn]
  · intro q l hq hlq
    rw [children_of_kids (by rw [d.some, hlq]; rfl), d.kids, kids_some hlq, filter_ne_of_not_mem]
    intro hm
    have h1 := w.back q node (by rw [kids_some hlq]; exact hm)
    have h2 := w.back s node (by rw [hk]; simp)
    rw [h1] at h2; injection h2 with h2; exact hq h2
  · have := d.par node; rw [if_pos rfl] at this; exact this
  · intro n hn; have := d.par n; rw [if_neg hn] at this; exact this
  · intro n; exact skin_label d.dict.1 (d.skin n)

/-! ### When they raise -/

theorem adopt_raises {fuel : Nat} {h h1 : Heap} {self node : Nat} {r : Option (Option Nat × Option Nat)} (w : WF h) (ha : h.adopt fuel self node = some (h1, r)) :
    r = none ↔ Chain h self node := by
  constructor
  · intro e
    subst e
    unfold Heap.adopt at ha
    split at ha
    · rename_i e; rw [e]; exact .refl _
    · dsimp only at ha
      split at ha
      · cases ha
      · split at ha
        · cases ha
        · rename_i hw; exact walkUp_true _ _ hw
        · cases ha
  · intro hc
    rcases r with _ | old
    · rfl
    · exact absurd hc (adopt_spec w ha).2.1

theorem insertFragment_raises {fuel : Nat} {h h1 : Heap} {self frag : Nat} {ref : Option Nat} {r : Option Unit} (w : WF h) (hf : h.knd frag = .fragment)
    (hr : ∀ x, ref = some x → x ∈ h.kids self) (ha : h.insertFragment fuel self frag ref = some (h1, r)) : r = none ↔ Chain h self frag := by
  unfold Heap.insertFragment at ha
  rcases hd : h.adopt fuel self frag with _ | ⟨h2, _ | old⟩
  · rw [hd] at ha; cases ha
  · rw [hd] at ha
    have := (adopt_raises w hd).1 rfl
    simp only [Res.andThen, Option.some.injEq, Prod.mk.injEq] at ha
    exact ⟨fun _ => this, fun _ => ha.2.symm⟩
  · rw [hd] at ha
    obtain ⟨-, hn, d, -⟩ := adopt_spec w hd
    simp only [Res.andThen] at ha
    have hk : h2.kids self = h.kids self := by
      rw [d.kids, filter_ne_of_not_mem]
      intro hm; exact w.nofrag self frag hm hf
    have hidx : ∃ i, refIndex (h2.kids self) ref = some i := by
      rw [hk]
      cases ref with
      | none => exact ⟨_, rfl⟩
      | some x =>
        rcases hi : (h.kids self).idxOf? x with _ | i
        · exact absurd (hr x rfl) (idxOf_none.1 hi)
        · exact ⟨i, hi⟩
    obtain ⟨i, hi⟩ := hidx
    rw [hi] at ha
    simp only [Option.some.injEq, Prod.mk.injEq] at ha
    refine ⟨fun e => ?_, fun hc => absurd hc hn⟩
    rw [e] at ha; cases ha.2

theorem chain_iff {h : Heap} {s n : Nat} : Chain h s n ↔ n = s ∨ Above h n s := by
  constructor
  · intro hc; exact chain_above hc
  · rintro (rfl | ha)
    · exact .refl _
    · obtain ⟨p, h1, h2⟩ := above_chain ha
      exact .up h1 h2

theorem andThen_some_raises {α : Type} {x : Res α} {k : Heap → α → Heap} {h1 : Heap} {r : Option Unit}
    (he : Res.andThen x (fun h a => some (k h a, some ())) = some (h1, r)) : ∃ h2 r2, x = some (h2, r2) ∧ (r = none ↔ r2 = none) := by
  rcases x with _ | ⟨h2, _ | a⟩
  · cases he
  · simp only [Res.andThen, Option.some.injEq, Prod.mk.injEq] at he
    exact ⟨h2, none, rfl, ⟨fun _ => rfl, fun _ => he.2.symm⟩⟩
  · simp only [Res.andThen, Option.some.injEq, Prod.mk.injEq] at he
    exact ⟨h2, some a, rfl, by rw [← he.2]; simp⟩

theorem append_raises {fuel : Nat} {h h1 : Heap} {self node : Nat} {r : Option Unit} (i : Inv h) (he : h.append fuel self node = some (h1, r)) :
    r = none ↔ h.knd self = .text ∨ ((h.obj self).children.isSome = true ∧ (node = self ∨ Above h node self)) := by
  rw [← chain_iff]
  unfold Heap.append at he
  by_cases ht : (h.obj self).kind = .text
  · rw [if_pos ht] at he
    cases he
    exact ⟨fun _ => .inl ht, fun _ => rfl⟩
  · rw [if_neg ht] at he
    have ht' : h.knd self ≠ .text := ht
    rcases hc : (h.obj self).children with _ | l
    · rw [hc] at he; cases he
      simp [ht']
    · rw [hc] at he
      dsimp only at he
      by_cases hf : (h.obj node).kind = .fragment
      · rw [if_pos hf] at he
        rw [insertFragment_raises i.wf hf (fun x e => by cases e) he]
        simp [ht']
      · rw [if_neg hf] at he
        obtain ⟨h2, r2, h3, h4⟩ := andThen_some_raises he
        rw [h4, adopt_raises i.wf h3]
        simp [ht']

/-- C61. When each call raises. `append_child` does nothing on a node that cannot have children. -/
theorem C61_append_raises {h h' : Heap} {fuel : Nat} {self node : Nat} {r : Option Unit} (hr : Reachable h) (he : h.step fuel (.append self node) = some (h', r)) :
    r = none ↔ (h.obj self).kind = .text ∨ ((h.obj self).children.isSome = true ∧ (node = self ∨ Above h node self)) :=
  append_raises (reach_inv hr) he

theorem C61_insert_raises {h h' : Heap} {fuel : Nat} {self node ref : Nat} {r : Option Unit} (hr : Reachable h)
    (he : h.step fuel (.insertBefore self node (some ref)) = some (h', r)) :
    r = none ↔ (h.obj self).children = none ∨ ∃ l, (h.obj self).children = some l ∧ node ≠ ref ∧ (ref ∉ l ∨ node = self ∨ Above h node self) := by
  have w := (reach_inv hr).wf
  rw [← chain_iff]
  simp only [Heap.step] at he
  unfold Heap.insertBefore at he
  rcases hc : (h.obj self).children with _ | l
  · rw [hc] at he; cases he; simp
  · rw [hc] at he
    dsimp only at he
    have hkl := kids_some hc
    simp only [reduceCtorEq, false_or]
    by_cases e : node = ref
    · rw [if_pos e] at he; cases he; simp [e]
    · rw [if_neg e] at he
      rcases hi : l.idxOf? ref with _ | j
      · rw [hi] at he; cases he
        have := idxOf_none.1 hi
        simp [e, this]
      · have hm : ref ∈ l := by
          rcases Decidable.em (ref ∈ l) with h1 | h1
          · exact h1
          · rw [idxOf_none.2 h1] at hi; cases hi
        rw [hi] at he
        dsimp only at he
        by_cases hf : (h.obj node).kind = .fragment
        · rw [if_pos hf] at he
          rw [insertFragment_raises w hf (fun x e => by cases e; rw [hkl]; exact hm) he]
          simp [e, hm]
        · rw [if_neg hf] at he
          obtain ⟨h2, r2, h3, h4⟩ := andThen_some_raises he
          rw [h4, adopt_raises w h3]
          simp [e, hm]

theorem C61_remove_raises {h h' : Heap} {fuel : Nat} {self node : Nat} {r : Option Unit} (he : h.step fuel (.remove self node) = some (h', r)) :
    r = none ↔ (h.obj self).kind = .text ∨ ∃ l, (h.obj self).children = some l ∧ node ∉ l := by
  simp only [Heap.step] at he
  unfold Heap.remove at he
  by_cases ht : (h.obj self).kind = .text
  · rw [if_pos ht] at he; cases he; simp [ht]
  · rw [if_neg ht] at he
    rcases hc : (h.obj self).children with _ | l
    · rw [hc] at he; cases he; simp [ht]
    · rw [hc] at he
      dsimp only at he
      rcases hi : l.idxOf? node with _ | j
      · rw [hi] at he; cases he
        have := idxOf_none.1 hi
        simp [this]
      · rw [hi] at he; cases he
        have hm : node ∈ l := by
          rcases Decidable.em (node ∈ l) with h1 | h1
          · exact h1
          · rw [idxOf_none.2 h1] at hi; cases hi
        simp [ht, hm]

theorem C61_replace_raises {h h' : Heap} {fuel : Nat} {self new old : Nat} {r : Option Unit} (hr : Reachable h) (hs : self < h.next) (hn : new < h.next)
    (ho : old < h.next) (he : h.step fuel (.replace self new old) = some (h', r)) :
    r = none ↔ (h.obj self).children = none ∨ ∃ l, (h.obj self).children = some l ∧ (old ∉ l ∨ (new ≠ old ∧ (new = self ∨ Above h new self))) := by
  have i := reach_inv hr
  rw [← chain_iff]
  simp only [Heap.step] at he
  rcases hc : (h.obj self).children with _ | l
  · unfold Heap.replace at he
    rw [hc] at he; cases he; simp
  · have hkl := kids_some hc
    simp only [reduceCtorEq, false_or]
    by_cases hm : old ∈ l
    · by_cases e : new = old
      · rcases replace_ok (fuel := fuel) i.wf (frag_some i) hs hn ho with h1 | h1 | ⟨h1, -⟩ | ⟨h1, h2, a, b, h3, h4⟩
        · rw [h1] at he; cases he
        · exfalso
          unfold Heap.replace at h1
          rw [hc] at h1
          dsimp only at h1
          rcases hi : l.idxOf? old with _ | j
          · exact idxOf_none.1 hi hm
          · rw [hi] at h1
            dsimp only at h1
            rw [if_pos e] at h1; cases h1
        · rw [h1] at he; cases he; simp [hm, e]
        · rw [h3] at he; cases he; simp [hm, e]
      · unfold Heap.replace at he
        rw [hc] at he
        dsimp only at he
        rcases hi : l.idxOf? old with _ | j
        · exact absurd hm (idxOf_none.1 hi)
        · rw [hi] at he
          dsimp only at he
          rw [if_neg e] at he
          by_cases hf : (h.obj new).kind = .fragment
          · rw [if_pos hf] at he
            rcases hx : h.insertFragment fuel self new (some old) with _ | ⟨h2, r2⟩
            · rw [hx] at he; cases he
            · have h3 := insertFragment_raises i.wf hf (fun x e => by cases e; rw [hkl]; exact hm) hx
              rw [hx] at he
              rcases r2 with _ | u
              · simp only [Res.andThen, Option.some.injEq, Prod.mk.injEq] at he
                rw [← he.2]
                simp [e, h3.1 rfl]
              · simp only [Res.andThen] at he
                have hnc : ¬ Chain h self new := fun hch => by have := h3.2 hch; cases this
                -- the removal succeeds
                rcases replace_ok (fuel := fuel) i.wf (frag_some i) hs hn ho with h1 | h1 | ⟨-, h1, -⟩ | ⟨k1, k2, a, b, h5, h6⟩
                · exfalso
                  unfold Heap.replace at h1
                  rw [hc] at h1; dsimp only at h1; rw [hi] at h1; dsimp only at h1
                  rw [if_neg e, if_pos hf, hx] at h1
                  simp only [Res.andThen] at h1
                  rw [he] at h1; cases h1
                · -- raising leaves the heap unchanged, but the fragment was emptied only if nothing was raised
                  exfalso
                  unfold Heap.replace at h1
                  rw [hc] at h1; dsimp only at h1; rw [hi] at h1; dsimp only at h1
                  rw [if_neg e, if_pos hf, hx] at h1
                  simp only [Res.andThen] at h1
                  obtain ⟨hsp, -, -⟩ := idxOf_split hi
                  rcases insertFragment_eq (fuel := fuel) (h := h) (self := self) (frag := new) (ref := some old) i.wf hf hs hn
                    (by
                      intro ht
                      have := i.shape.cls self
                      rw [hc, ht] at this; cases this)
                    (by rw [hc]; rfl) (frag_some i new hn hf) (l.take j) (old :: l.drop (j + 1)) (by rw [hkl]; exact hsp) ⟨_, rfl⟩ with h7 | h7 | ⟨h8, h7, w8, sp, -⟩
                  · rw [h7] at hx; cases hx
                  · rw [h7] at hx; cases hx
                  · rw [h7] at hx
                    simp only [Option.some.injEq, Prod.mk.injEq, and_true] at hx
                    subst hx
                    have hk8 : old ∈ h8.kids self := by rw [sp.kids, if_pos rfl]; simp
                    unfold Heap.remove at h1
                    rw [if_neg] at h1
                    · obtain ⟨l8, hl8, hm8⟩ := some_kids hk8
                      rw [hl8] at h1
                      dsimp only at h1
                      rcases h9 : l8.idxOf? old with _ | j8
                      · exact idxOf_none.1 h9 hm8
                      · rw [h9] at h1; cases h1
                    · intro ht8
                      have := w8.leaf self ht8
                      rw [this] at hk8; cases hk8
                · exact absurd h1 e
                · unfold Heap.replace at h5
                  rw [hc] at h5; dsimp only at h5; rw [hi] at h5; dsimp only at h5
                  rw [if_neg e, if_pos hf, hx] at h5
                  simp only [Res.andThen] at h5
                  rw [h5] at he; cases he
                  simp [hm, hnc]
          · rw [if_neg hf] at he
            obtain ⟨h2, r2, h3, h4⟩ := andThen_some_raises he
            rw [h4, adopt_raises i.wf h3]
            simp [e, hm]
    · unfold Heap.replace at he
      rw [hc] at he
      dsimp only at he
      rw [idxOf_none.2 hm] at he
      cases he
      simp [hm]

/-! ### What they do -/

/-- C61. `append_child` of a node that is not a fragment: it becomes the last child. -/
theorem C61_append_effect {h h' : Heap} {fuel : Nat} {self node : Nat} {l : List Nat} (hr : Reachable h) (hs : self < h.next) (hn : node < h.next)
    (hl : (h.obj self).children = some l) (hf : (h.obj node).kind ≠ .fragment) (he : h.step fuel (.append self node) = some (h', some ())) :
    MovedTo h h' self node (l.filter (· ≠ node)) [] := by
  have i := reach_inv hr
  simp only [Heap.step] at he
  rcases append_ok (fuel := fuel) i.wf (frag_some i) hs hn with h1 | h1 | ⟨h1, h2⟩ | ⟨h2, h1, w, h3, ⟨-, -, p⟩ | ⟨h4, -⟩⟩
  · rw [h1] at he; cases he
  · rw [h1] at he; cases he
  · rw [hl] at h2; cases h2
  · rw [h1] at he; cases he; rw [kids_some hl] at p; exact placed_moved h3 p
  · exact absurd h4 hf

/-- C61. `append_child` of a fragment: its children become the last children. -/
theorem C61_append_fragment_effect {h h' : Heap} {fuel : Nat} {self node : Nat} {l src : List Nat} (hr : Reachable h) (hs : self < h.next) (hn : node < h.next)
    (hl : (h.obj self).children = some l) (hf : (h.obj node).kind = .fragment) (hsrc : (h.obj node).children = some src)
    (he : h.step fuel (.append self node) = some (h', some ())) : Poured h h' self node src l [] := by
  have i := reach_inv hr
  simp only [Heap.step] at he
  rcases append_ok (fuel := fuel) i.wf (frag_some i) hs hn with h1 | h1 | ⟨h1, h2⟩ | ⟨h2, h1, w, h3, ⟨h4, -⟩ | ⟨-, h5, p⟩⟩
  · rw [h1] at he; cases he
  · rw [h1] at he; cases he
  · rw [hl] at h2; cases h2
  · exact absurd hf h4
  · rw [h1] at he; cases he
    rw [kids_some hl] at p
    have := spliced_poured h3 (frag_some i node hn hf) h5 p
    rw [kids_some hsrc] at this; exact this

/-- C61. `insert_before` of a node that is not a fragment: it stands just before the reference node. -/
theorem C61_insert_effect {h h' : Heap} {fuel : Nat} {self node ref : Nat} (hr : Reachable h) (hs : self < h.next) (hn : node < h.next)
    (hne : node ≠ ref) (hf : (h.obj node).kind ≠ .fragment) (he : h.step fuel (.insertBefore self node (some ref)) = some (h', some ())) :
    ∃ a b, (h.obj self).children = some (a ++ ref :: b) ∧ MovedTo h h' self node (a.filter (· ≠ node)) (ref :: b.filter (· ≠ node)) := by
  have i := reach_inv hr
  simp only [Heap.step] at he
  rcases insertBefore_ok (fuel := fuel) (r := ref) i.wf (frag_some i) hs hn with h1 | h1 | ⟨-, h1⟩ | ⟨h2, a, b, h1, w, hk, h3, ⟨-, -, p⟩ | ⟨h4, -⟩⟩
  · rw [h1] at he; cases he
  · rw [h1] at he; cases he
  · exact absurd h1 hne
  · rw [h1] at he; cases he
    exact ⟨a, b, by rw [children_of_kids h3, hk], placed_moved h3 p⟩
  · exact absurd h4 hf

/-- C61. `insert_before` of a fragment. -/
theorem C61_insert_fragment_effect {h h' : Heap} {fuel : Nat} {self node ref : Nat} {src : List Nat} (hr : Reachable h) (hs : self < h.next) (hn : node < h.next)
    (hne : node ≠ ref) (hf : (h.obj node).kind = .fragment) (hsrc : (h.obj node).children = some src)
    (he : h.step fuel (.insertBefore self node (some ref)) = some (h', some ())) :
    ∃ a b, (h.obj self).children = some (a ++ ref :: b) ∧ Poured h h' self node src a (ref :: b) := by
  have i := reach_inv hr
  simp only [Heap.step] at he
  rcases insertBefore_ok (fuel := fuel) (r := ref) i.wf (frag_some i) hs hn with h1 | h1 | ⟨-, h1⟩ | ⟨h2, a, b, h1, w, hk, h3, ⟨h4, -⟩ | ⟨-, h5, p⟩⟩
  · rw [h1] at he; cases he
  · rw [h1] at he; cases he
  · exact absurd h1 hne
  · exact absurd hf h4
  · rw [h1] at he; cases he
    have := spliced_poured h3 (frag_some i node hn hf) h5 p
    rw [kids_some hsrc] at this
    exact ⟨a, b, by rw [children_of_kids h3, hk], this⟩

/-- C61. `insert_before(node, None)` is `append_child(node)` on a node that can have children. -/
theorem C61_insert_at_end {h : Heap} {fuel : Nat} {self node : Nat} {l : List Nat} (hl : (h.obj self).children = some l) :
    h.step fuel (.insertBefore self node none) = h.step fuel (.append self node) := by
  simp only [Heap.step]; unfold Heap.insertBefore; rw [hl]

/-- C61. `remove_child`. -/
theorem C61_remove_effect {h h' : Heap} {fuel : Nat} {self node : Nat} {l : List Nat} (hr : Reachable h) (hn : node < h.next)
    (hl : (h.obj self).children = some l) (he : h.step fuel (.remove self node) = some (h', some ())) :
    ∃ a b, l = a ++ node :: b ∧ TakenOut h h' self node a b := by
  have i := reach_inv hr
  simp only [Heap.step] at he
  rcases remove_ok (self := self) i.wf hn with h1 | ⟨-, h1⟩ | ⟨h2, h1, w, hm, d⟩
  · rw [h1] at he; cases he
  · rw [hl] at h1; cases h1
  · rw [h1] at he; cases he
    rw [kids_some hl] at hm
    obtain ⟨a, b, rfl⟩ := List.append_of_mem hm
    exact ⟨a, b, rfl, detached_taken i.wf hl d⟩

/-- C61. `replace_child` is `insert_before` of the new node and removal of the old one. -/
theorem C61_replace_effect {h h' : Heap} {fuel : Nat} {self new old : Nat} (hr : Reachable h) (hs : self < h.next) (hn : new < h.next) (ho : old < h.next)
    (hne : new ≠ old) (he : h.step fuel (.replace self new old) = some (h', some ())) :
    ∃ h1 a b, (h.obj self).children = some (a ++ old :: b) ∧
      (((h.obj new).kind ≠ .fragment ∧ MovedTo h h1 self new (a.filter (· ≠ new)) (old :: b.filter (· ≠ new)) ∧
          TakenOut h1 h' self old (a.filter (· ≠ new) ++ [new]) (b.filter (· ≠ new))) ∨
        ∃ src, (h.obj new).kind = .fragment ∧ (h.obj new).children = some src ∧ Poured h h1 self new src a (old :: b) ∧
          TakenOut h1 h' self old (a ++ src) b) := by
  have i := reach_inv hr
  simp only [Heap.step] at he
  rcases replace_ok (fuel := fuel) i.wf (frag_some i) hs hn ho with h1 | h1 | ⟨-, h1, -⟩ | ⟨h1, h2, a, b, e, w1, w2, -, hk, d, p⟩
  · rw [h1] at he; cases he
  · rw [h1] at he; cases he
  · exact absurd h1 hne
  · rw [e] at he; cases he
    have hsome : (h.obj self).children.isSome = true := by
      obtain ⟨l, hl, -⟩ := some_kids (show old ∈ h.kids self by rw [hk]; simp)
      rw [hl]; rfl
    refine ⟨h1, a, b, by rw [children_of_kids hsome, hk], ?_⟩
    rcases p with ⟨h3, -, p⟩ | ⟨h3, h5, p⟩
    · left
      have m := placed_moved hsome p
      refine ⟨h3, m, detached_taken w1 ?_ d⟩
      rw [m.here]; simp
    · right
      have hfs := frag_some i new hn h3
      have m := spliced_poured hsome hfs h5 p
      refine ⟨h.kids new, h3, children_of_kids hfs, m, detached_taken w1 ?_ d⟩
      rw [m.here]

/-- The hypotheses are met: the history `sampleOps`, cut before its fragment insertion. -/
example : (runDom 20 {} (sampleOps.take 8)).map (fun h => (h.kids 0, h.kids 3, (h.obj 3).kind, (h.step 20 (.insertBefore 0 3 (some 1))).map (·.2)))
    = some ([1], [4], .fragment, some (some ())) := by decide
/-- `div.replace_child(text, p)`, the text being inside `p`. -/
example : (runDom 20 {} (sampleOps.take 8)).bind (fun h => (h.step 20 (.replace 0 2 1)).map fun r => (r.2, r.1.kids 0, r.1.kids 1, r.1.par 1, r.1.par 2))
    = some (some (), [2], [], none, some 0) := by decide

end JH
