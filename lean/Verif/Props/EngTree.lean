import Verif.Lemmas.EngWhole
import Verif.Spec.ParseTree
import Verif.Props.EngNodes

/-! C94: every parse yields a finite tree, with pointers up and down that agree. -/
namespace JH.Eng

set_option maxRecDepth 100000
seal result run

/-- The nodes of a state, with the fields a user sees. -/
def pointersOf (s : St) : Spec.Doc :=
  { root := s.doc, kids := fun i => (s.n i).children, content := fun i => (s.n i).content, parent := fun i => (s.n i).parent }

/-- The nodes at the end of a parse, with the fields a user sees. -/
def pointers (C : Cfg) : Spec.Doc := pointersOf (run C)

section
variable {C : Cfg}

theorem Proper.has {s : St} (h : Proper s) {i : Nat} (hi : (pointersOf s).Has i) : i < s.heap.length ∧ (s.n i).ns ≠ poNs := by
  induction hi with
  | root => exact h.doc
  | down _ e ih =>
    rcases e with e | e
    · have := h.kids _ (.inl ih.2) _ e
      exact ⟨this.1, this.2.1⟩
    · have := h.cont _ _ e
      exact ⟨this.1, this.2.1⟩

theorem below_rank {d : Spec.Doc} {rk : Nat → Nat} (hr : ∀ p c, d.Has p → d.Down p c → rk p < rk c) {a b : Nat} (ha : d.Has a) (h : d.Below a b) : rk a < rk b ∧ d.Has b := by
  induction h with
  | one e => exact ⟨hr _ _ ha e, .down ha e⟩
  | more _ e ih => exact ⟨Nat.lt_trans ih.1 (hr _ _ ih.2 e), .down ih.2 e⟩

theorem has_below {d : Spec.Doc} {i : Nat} (h : d.Has i) : i = d.root ∨ d.Below d.root i := by
  induction h with
  | root => exact .inl rfl
  | down _ e ih =>
    rcases ih with rfl | ih
    · exact .inr (.one e)
    · exact .inr (.more ih e)

theorem Proper.isTree {s : St} (h : Proper s) : (pointersOf s).IsTree s.heap.length := by
  obtain ⟨rk, hr⟩ := h.rank
  have hrk : ∀ p c, (pointersOf s).Has p → (pointersOf s).Down p c → rk p < rk c := fun p c hp e => hr p c ⟨.inl (h.has hp).2, e⟩
  refine ⟨⟨List.range s.heap.length, by simp, fun i hi => by simpa using (h.has hi).1⟩, fun p hp => ?_, fun p c hp e => ?_, fun p c hp hc q hq hn => ?_, fun p hp e => ?_,
    fun i hi e => ?_⟩
  · show (s.n p).children.Nodup
    rw [List.nodup_iff_count]
    intro a
    by_cases ha : a ∈ (s.n p).children
    · exact Nat.le_of_eq ((h.kids p (.inl (h.has hp).2) a ha).2.2 trivial).2
    · rw [List.count_eq_zero_of_not_mem ha]; omega
  · rcases e with e | e
    · exact ((h.kids p (.inl (h.has hp).2) c e).2.2 trivial).1
    · exact (h.cont p c e).2.2.2.2
  · exact h.apart (.inl (h.has hp).2) hc hn
  · have h1 := hrk p _ hp e
    rcases has_below hp with rfl | hb
    · omega
    · have := (below_rank hrk .root hb).1
      omega
  · exact absurd (below_rank hrk hi e).1 (by omega)

/-- So many different small numbers. -/
theorem pigeon : ∀ (n : Nat) (l : List Nat), l.Nodup → (∀ x ∈ l, x < n) → l.length ≤ n := by
  intro n
  induction n with
  | zero =>
    intro l _ h
    cases l with
    | nil => simp
    | cons a l => exact absurd (h a (by simp)) (by omega)
  | succ n ih =>
    intro l hl h
    have := ih (l.erase n) (hl.erase n) fun x hx => by
      have h1 := h x (List.mem_of_mem_erase hx)
      have h2 := ((List.Nodup.mem_erase_iff hl).1 hx).1
      omega
    rw [List.length_erase] at this
    split at this <;> omega

/-- Cutting the tree at a greater depth changes nothing. -/
theorem treeF_deep {s : St} {n : Nat} {rk : Nat → Nat} {P : Nat → Prop} (hP : ∀ i, P i → i < n) (hd : ∀ p c, P p → (c ∈ (s.n p).children ∨ (s.n p).content = some c) → P c ∧ rk p < rk c) :
    ∀ (k i : Nat) (l : List Nat), P i → l.Nodup → (∀ x ∈ l, x < n ∧ rk x < rk i) → n + 1 ≤ k + l.length → ∀ f, k ≤ f → treeF s f i = treeF s k i := by
  intro k
  induction k with
  | zero =>
    intro i l hi hl hx hk f _
    have := pigeon n l hl fun x hm => (hx x hm).1
    omega
  | succ k ih =>
    intro i l hi hl hx hk f hf
    obtain ⟨f, rfl⟩ : ∃ g, f = g + 1 := ⟨f - 1, by omega⟩
    have hil : (i :: l).Nodup := List.nodup_cons.2 ⟨fun hm => by have := (hx i hm).2; omega, hl⟩
    have next : ∀ c, P c → rk i < rk c → treeF s f c = treeF s k c := fun c hc hr =>
      ih c (i :: l) hc hil (fun x hm => by
        rcases List.mem_cons.1 hm with rfl | hm
        · exact ⟨hP _ hi, hr⟩
        · exact ⟨(hx x hm).1, Nat.lt_trans (hx x hm).2 hr⟩) (by simp only [List.length_cons]; omega) f (by omega)
    have kids : (s.n i).children.map (treeF s f) = (s.n i).children.map (treeF s k) :=
      List.map_congr_left fun c hc => next c (hd i c hi (.inl hc)).1 (hd i c hi (.inl hc)).2
    have cont : (match (s.n i).content with | some c => (s.n c).children.map (treeF s f) | none => []) =
        (match (s.n i).content with | some c => (s.n c).children.map (treeF s k) | none => []) := by
      cases hc : (s.n i).content with
      | none => rfl
      | some c =>
        obtain ⟨h1, h2⟩ := hd i c hi (.inr hc)
        exact List.map_congr_left fun d hdd => next d (hd c d h1 (.inl hdd)).1 (Nat.lt_trans h2 (hd c d h1 (.inl hdd)).2)
    show treeF s (f + 1) i = treeF s (k + 1) i
    unfold treeF
    simp only [kids]
    cases (s.n i).kind <;> try rfl
    cases hc : (s.n i).content with
    | none => rfl
    | some c =>
      rw [hc] at cont
      exact congrArg _ cont

theorem Proper.deep (h : Proper (run C)) (f : Nat) (hf : (run C).heap.length < f) : treeF (run C) f (run C).doc = result C := by
  obtain ⟨rk, hr⟩ := h.rank
  unfold result
  refine treeF_deep (n := (run C).heap.length) (rk := rk) (P := (pointers C).Has) (fun i hi => (h.has hi).1) (fun p c hp e => ⟨.down hp e, hr p c ⟨.inl (h.has hp).2, e⟩⟩) _ _ [] .root
    List.nodup_nil (by simp) (by simp) f (by omega)

end

/-- C94: for every text and every way to parse it (as a document or as a fragment in any context element, with the default policy or without one), the
nodes that can be reached from the root are a finite tree: a node stands in one place only, once, and points back to the node it stands in; nothing is
below itself. -/
theorem C94_tree (E : UrlEnv) (T : EntTables) (fragment : Bool) (html ctx : Str) (ctxNs : Option Str) (scripting : Bool) (hns : ctxNs ≠ some c%"justhtml-parser-only") :
    (pointers (safeCfg E T fragment html ctx ctxNs scripting)).IsTree (run (safeCfg E T fragment html ctx ctxNs scripting)).heap.length ∧
    (pointers (rawCfg E T fragment html ctx ctxNs scripting)).IsTree (run (rawCfg E T fragment html ctx ctxNs scripting)).heap.length := by
  have h1 : (safeCfg E T fragment html ctx ctxNs scripting).ctxNs ≠ poNs := by
    show (if fragment then ctxNs else none) ≠ _
    cases fragment
    · simp [poNs]
    · exact hns
  have h2 : (rawCfg E T fragment html ctx ctxNs scripting).ctxNs ≠ poNs := h1
  exact ⟨(run_proper h1).isTree, (run_proper h2).isTree⟩

/-- C94, for a custom policy: the same if the policy allows none of the three elements that the parser itself acts upon at the end. -/
theorem C94_tree_policy (C : Cfg) (p : SafePolicy) (sc : Bool) (hp : C.plan = compilePlan C.E.U p sc)
    (hno : ∀ x ∈ [c%"input", c%"option", c%"selectedcontent"], x ∉ p.allowedTags) (hns : C.ctxNs ≠ some c%"justhtml-parser-only") :
    (pointers C).IsTree (run C).heap.length := by
  have : Ok C := ⟨.inr ⟨p, sc, hp, hno⟩⟩
  exact (run_proper hns).isTree

/-- C94: what other theorems call the result of a parse is the whole tree: no depth is cut off, however deep the input nests. -/
theorem C94_whole (E : UrlEnv) (T : EntTables) (fragment : Bool) (html ctx : Str) (ctxNs : Option Str) (scripting : Bool) (hns : ctxNs ≠ some c%"justhtml-parser-only") (f : Nat) :
    ((run (safeCfg E T fragment html ctx ctxNs scripting)).heap.length < f →
      treeF (run (safeCfg E T fragment html ctx ctxNs scripting)) f (run (safeCfg E T fragment html ctx ctxNs scripting)).doc = result (safeCfg E T fragment html ctx ctxNs scripting)) ∧
    ((run (rawCfg E T fragment html ctx ctxNs scripting)).heap.length < f →
      treeF (run (rawCfg E T fragment html ctx ctxNs scripting)) f (run (rawCfg E T fragment html ctx ctxNs scripting)).doc = result (rawCfg E T fragment html ctx ctxNs scripting)) := by
  have h1 : (safeCfg E T fragment html ctx ctxNs scripting).ctxNs ≠ poNs := by
    show (if fragment then ctxNs else none) ≠ _
    cases fragment
    · simp [poNs]
    · exact hns
  have h2 : (rawCfg E T fragment html ctx ctxNs scripting).ctxNs ≠ poNs := h1
  exact ⟨(run_proper h1).deep f, (run_proper h2).deep f⟩

/-- Misnested tags, text that a table pushes out, and a template: nodes are copied and moved, and end up in one place each. -/
example : ((run (rawCfg .sample .sample false c%"<b><p>x</b>y<table>z<td><template><i>t</template></table>")).heap.map fun n => (n.parent, n.children, n.content)) =
    [(none, [1], none), (some 0, [2, 3], none), (some 1, [], none), (some 1, [4, 5], none), (some 3, [], none), (some 3, [7, 8, 9], none), (some 7, [], none), (some 5, [6], none),
      (some 5, [], none), (some 5, [11], none), (none, [], none), (some 9, [12], none), (some 11, [13], none), (some 12, [14], none), (some 13, [], some 15), (some 14, [16], none),
      (some 15, [17], none), (some 16, [], none)] := by
  with_unfolding_all decide +kernel

end JH.Eng
