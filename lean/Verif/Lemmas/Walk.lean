import Verif.Model.Transforms
import Verif.Props.SanClean
import Verif.Spec.Transforms
/-! The walk of the transform runtime, computed exactly for operations that look at nothing but the node. -/
namespace JH
open Spec

/-- The outcome of the operations on one node agrees with `spec`, which gives the nodes that take the place of a node, by the index of its first
operation. -/
def RunIs (Ok : Node → Prop) (spec : Node → Nat → List Node) (n : Node) (s : Nat) (r : StepR) : Prop :=
  (∃ l, r = .done l ∧ (∀ y ∈ l, Ok y.1) ∧ Node.sizeL (l.map (·.1)) + 1 ≤ n.size ∧ spec n s = l.flatMap fun y => spec y.1 y.2) ∨
  (∃ n', r = .cont n' ∧ ∀ w : Bool → List Node → List Node,
    (∀ b k, Node.sizeL k + 2 ≤ n.size → (∀ y ∈ k, Ok y) → w b k = k.flatMap fun y => spec y 0) → spec n s = [descend w n'])

theorem sizeL_app (a b : List Node) : Node.sizeL (a ++ b) = Node.sizeL a + Node.sizeL b := sizeL_append a b

theorem walk_exact (S : SanEnv) (C : SanCfg) (ops : List Op) (Ok : Node → Prop) (spec : Node → Nat → List Node)
    (h : ∀ path fg n s, Ok n → RunIs Ok spec n s (runOps S C path fg s (ops.drop s) n)) :
    ∀ fuel up fc left items, (∀ y ∈ items, Ok y.1) → Node.sizeL (items.map (·.1)) < fuel →
      walkF S C ops fuel up fc left items = left.reverse ++ items.flatMap fun y => spec y.1 y.2 := by
  intro fuel
  induction fuel with
  | zero => intro _ _ _ _ _ h; omega
  | succ fuel ih =>
    intro up fc left items hok hf
    cases items with
    | nil => rw [walkF.eq_def]; simp
    | cons x rest =>
      obtain ⟨n, s⟩ := x
      rw [walkF.eq_def]
      dsimp only
      have hn : Ok n := hok (n, s) (by simp)
      have hrest : ∀ y ∈ rest, Ok y.1 := fun y hy => hok y (by simp [hy])
      have hcost : Node.sizeL (((n, s) :: rest).map (·.1)) = n.size + Node.sizeL (rest.map (·.1)) := rfl
      have hpos := size_pos n
      rcases h (⟨[], none, [], left, rest.map Prod.fst⟩ :: up) (fc || isForeign S.E.U n) n s hn with ⟨l, hl, hokl, hc, e⟩ | ⟨n', hl, e⟩
      · rw [hl]
        dsimp only
        rw [ih up fc left (l ++ rest) ?_ ?_]
        · simp [e]
        · intro y hy
          rcases List.mem_append.1 hy with hy | hy
          · exact hokl y hy
          · exact hrest y hy
        · rw [List.map_append, sizeL_app]; omega
      · rw [hl]
        dsimp only
        rw [ih up fc _ rest hrest (by omega)]
        rw [List.flatMap_cons, e (fun frag kids => walkF S C ops fuel (if frag then ⟨c%"#document-fragment", none, [], [], []⟩ ::
          frameOf left (rest.map Prod.fst) n' :: up else frameOf left (rest.map Prod.fst) n' :: up) (fc || isForeign S.E.U n) []
          (kids.map fun k => (k, 0))) ?_]
        · simp
        · intro b k hk hkok
          rw [ih _ _ [] _ ?_ ?_]
          · simp [List.flatMap_map]
          · intro y hy
            obtain ⟨z, hz, rfl⟩ := List.mem_map.1 hy
            exact hkok z hz
          · simp only [List.map_map, Function.comp_def, List.map_id']
            omega

/-- The walk over the children of the root. -/
theorem walk_exact0 (S : SanEnv) (C : SanCfg) (ops : List Op) (Ok : Node → Prop) (spec : Node → Nat → List Node) (fuel : Nat) (kids : List Node)
    (h : ∀ path fg n s, Ok n → RunIs Ok spec n s (runOps S C path fg s (ops.drop s) n)) (hok : ∀ y ∈ kids, Ok y) (hf : Node.sizeL kids < fuel) :
    walkF S C ops fuel [] false [] (kids.map fun k => (k, 0)) = kids.flatMap fun y => spec y 0 := by
  rw [walk_exact S C ops Ok spec h]
  · simp [List.flatMap_map]
  · intro y hy
    obtain ⟨z, hz, rfl⟩ := List.mem_map.1 hy
    exact hok z hz
  · simpa only [List.map_map, Function.comp_def, List.map_id'] using hf

/-- A tree all of whose elements have proper names. -/
abbrev NamedTree (n : Node) : Prop := Everywhere WellNamed n

theorem everywhereL_iff (p : Node → Prop) (l : List Node) : EverywhereL p l ↔ ∀ n ∈ l, Everywhere p n := by
  induction l with
  | nil => simp [EverywhereL]
  | cons a l ih => simp [EverywhereL, ih]

theorem NamedTree.name {name : Str} {ns : Option Str} {as : Attrs} {kids : List Node} {tpl : Bool} {content : List Node}
    (h : NamedTree (.elem name ns as kids tpl content)) : ProperName name := by
  simp only [NamedTree, Everywhere] at h
  exact h.1 _ _ _ _ _ _ rfl

theorem NamedTree.kids {name : Str} {ns : Option Str} {as : Attrs} {kids : List Node} {tpl : Bool} {content : List Node}
    (h : NamedTree (.elem name ns as kids tpl content)) : ∀ k ∈ kids, NamedTree k := by
  simp only [NamedTree, Everywhere] at h
  exact (everywhereL_iff _ _).1 h.2.1

theorem NamedTree.content {name : Str} {ns : Option Str} {as : Attrs} {kids : List Node} {content : List Node}
    (h : NamedTree (.elem name ns as kids true content)) : ∀ k ∈ content, NamedTree k := by
  simp only [NamedTree, Everywhere] at h
  exact (everywhereL_iff _ _).1 (h.2.2 trivial)

theorem NamedTree.doc {kids : List Node} (h : NamedTree (.doc kids)) : ∀ k ∈ kids, NamedTree k := by
  simp only [NamedTree, Everywhere] at h
  exact (everywhereL_iff _ _).1 h.2

theorem NamedTree.mk {name : Str} {ns : Option Str} {as : Attrs} {kids : List Node} {tpl : Bool} {content : List Node}
    (hn : ProperName name) (hk : ∀ k ∈ kids, NamedTree k) (hc : tpl = true → ∀ k ∈ content, NamedTree k) :
    NamedTree (.elem name ns as kids tpl content) := by
  simp only [NamedTree, Everywhere]
  refine ⟨fun _ _ _ _ _ _ e => ?_, (everywhereL_iff _ _).2 hk, fun h => (everywhereL_iff _ _).2 (hc h)⟩
  simp only [Node.elem.injEq] at e
  exact e.1 ▸ hn

theorem NamedTree.text (d : Str) : NamedTree (.text d) := by
  simp only [NamedTree, Everywhere]
  exact fun _ _ _ _ _ _ e => by simp at e

theorem NamedTree.hoisted {n : Node} (h : NamedTree n) : ∀ k ∈ hoisted n, NamedTree k := by
  intro k hk
  cases n with
  | elem name ns as kids tpl content =>
    cases tpl with
    | true =>
      simp only [JH.hoisted, if_true, List.mem_append] at hk
      exact hk.elim (h.kids k) (h.content k)
    | false =>
      simp only [JH.hoisted] at hk
      exact h.kids k hk
  | doc kids => exact h.doc k hk
  | _ => simp [JH.hoisted] at hk

theorem hoisted_size (n : Node) : Node.sizeL (hoisted n) + 1 ≤ n.size := by
  cases n with
  | elem name ns as kids tpl content =>
    cases tpl
    · simp [hoisted, Node.size]; omega
    · simp [hoisted, Node.size, sizeL_app]; omega
  | doc kids => simp [hoisted, Node.size]; omega
  | _ => simp [hoisted, Node.size, Node.sizeL]

theorem descend_elem (w : Bool → List Node → List Node) {name : Str} (ns : Option Str) (as : Attrs) (kids : List Node) (tpl : Bool) (content : List Node)
    (hn : ProperName name) :
    descend w (.elem name ns as kids tpl content) = .elem name ns as (w false kids) tpl (if tpl then w true content else content) := by
  simp only [descend]
  rw [if_neg hn.1]

theorem descend_congr (w : Bool → List Node → List Node) (g : List Node → List Node) (n : Node) (hn : NamedTree n)
    (h : ∀ b k, Node.sizeL k + 2 ≤ n.size → (∀ y ∈ k, NamedTree y) → w b k = g k) : descend w n = descend (fun _ => g) n := by
  cases n with
  | elem name ns as kids tpl content =>
    rw [descend_elem w ns as kids tpl content hn.name, descend_elem _ ns as kids tpl content hn.name]
    rw [h false kids (by simp only [Node.size]; omega) hn.kids]
    cases tpl
    · rfl
    · simp only [if_true]
      rw [h true content (by simp only [Node.size]; omega) hn.content]
  | doc kids => simp only [descend]; rw [h false kids (by simp only [Node.size]; omega) hn.doc]
  | _ => rfl

mutual
/-- Computes whether all elements have proper names. -/
def namedB : Node → Bool
  | .elem name _ _ kids tpl content => name.head? ≠ some '#' && name ≠ c%"!doctype" && namedBL kids && (!tpl || namedBL content)
  | .doc kids => namedBL kids
  | _ => true
/-- The same for a list. -/
def namedBL : List Node → Bool
  | [] => true
  | n :: ns => namedB n && namedBL ns
end

mutual
theorem namedB_iff : ∀ n, namedB n = true → NamedTree n
  | .elem name ns as kids tpl content, h => by
    simp only [namedB, Bool.and_eq_true, Bool.or_eq_true, Bool.not_eq_true', decide_eq_true_eq] at h
    refine NamedTree.mk ⟨h.1.1.1, h.1.1.2⟩ (namedBL_iff kids h.1.2) ?_
    rintro rfl
    simp only [Bool.true_eq_false, false_or] at h
    exact namedBL_iff content h.2
  | .doc kids, h => by
    simp only [NamedTree, Everywhere]
    exact ⟨fun _ _ _ _ _ _ e => by simp at e, (everywhereL_iff _ _).2 (namedBL_iff kids (by simpa [namedB] using h))⟩
  | .text _, _ => NamedTree.text _
  | .comment _, _ => by simp only [NamedTree, Everywhere]; exact fun _ _ _ _ _ _ e => by simp at e
  | .pi _, _ => by simp only [NamedTree, Everywhere]; exact fun _ _ _ _ _ _ e => by simp at e
  | .doctype _ _ _, _ => by simp only [NamedTree, Everywhere]; exact fun _ _ _ _ _ _ e => by simp at e
theorem namedBL_iff : ∀ l, namedBL l = true → ∀ n ∈ l, NamedTree n
  | [], _, n, hn => by simp at hn
  | a :: l, h, n, hn => by
    simp only [namedBL, Bool.and_eq_true] at h
    have h1 := namedB_iff a h.1
    have h2 := namedBL_iff l h.2
    rcases List.mem_cons.1 hn with e | hn
    · rw [e]; exact h1
    · exact h2 n hn
end

/-- What a walk with one operation does to each node. -/
theorem walk_single (S : SanEnv) (C : SanCfg) (f : List Frame → Node → UserAct) (spec : Node → List Node) (fuel : Nat) (kids : List Node)
    (h : ∀ path n, NamedTree n →
      (∃ l again, f path n = .replace l again ∧ (∀ y ∈ l, NamedTree y) ∧ Node.sizeL l + 1 ≤ n.size ∧
        spec n = if again then l.flatMap spec else l.map fun k => descend (fun _ ks => ks.flatMap spec) k) ∨
      (∃ n', f path n = .keep n' ∧ NamedTree n' ∧ n'.size ≤ n.size ∧ spec n = [descend (fun _ ks => ks.flatMap spec) n']))
    (hok : ∀ y ∈ kids, NamedTree y) (hf : Node.sizeL kids < fuel) :
    walkF S C [.user f] fuel [] false [] (kids.map fun k => (k, 0)) = kids.flatMap spec := by
  rw [walk_exact0 S C [.user f] NamedTree (fun n s => if s = 0 then spec n else [descend (fun _ ks => ks.flatMap spec) n]) fuel kids ?_ hok hf]
  · simp
  intro path fg n s hn
  cases s with
  | succ s =>
    refine .inr ⟨n, by simp [runOps], fun w hw => ?_⟩
    simp only [Nat.add_one_ne_zero, if_false]
    rw [descend_congr w (fun ks => ks.flatMap spec) n hn (fun b k h1 h2 => by simpa using hw b k h1 h2)]
  | zero =>
    simp only [List.drop_zero, runOps, applyOp]
    rcases h path n hn with ⟨l, again, e, h1, h2, h3⟩ | ⟨n', e, h1, h2, h3⟩
    · rw [e]
      refine .inl ⟨_, rfl, ?_, ?_, ?_⟩
      · intro y hy
        obtain ⟨z, hz, rfl⟩ := List.mem_map.1 hy
        exact h1 z hz
      · simpa only [List.map_map, Function.comp_def, List.map_id'] using h2
      · simp only [if_true]
        rw [h3]
        cases again
        · simp only [Bool.false_eq_true, if_false, List.flatMap_map, Nat.zero_add, Nat.one_ne_zero]
          rw [List.map_eq_flatMap]
        · simp [List.flatMap_map]
    · rw [e]
      refine .inr ⟨n', rfl, fun w hw => ?_⟩
      simp only [if_true]
      rw [h3, descend_congr w (fun ks => ks.flatMap spec) n' h1 (fun b k hk1 hk2 => by simpa using hw b k (by omega) hk2)]

/-- What a walk with one operation that keeps or removes nodes does. -/
theorem walk_single_op (S : SanEnv) (C : SanCfg) (o : Op) (spec : Node → List Node) (fuel : Nat) (kids : List Node)
    (h : ∀ path fg n, NamedTree n →
      (applyOp S C path fg 0 o n = .done [] ∧ spec n = []) ∨
      (∃ n', applyOp S C path fg 0 o n = .cont n' ∧ NamedTree n' ∧ n'.size ≤ n.size ∧ spec n = [descend (fun _ ks => ks.flatMap spec) n']))
    (hok : ∀ y ∈ kids, NamedTree y) (hf : Node.sizeL kids < fuel) :
    walkF S C [o] fuel [] false [] (kids.map fun k => (k, 0)) = kids.flatMap spec := by
  rw [walk_exact0 S C [o] NamedTree (fun n s => if s = 0 then spec n else [descend (fun _ ks => ks.flatMap spec) n]) fuel kids ?_ hok hf]
  · simp
  intro path fg n s hn
  cases s with
  | succ s =>
    refine .inr ⟨n, by simp [runOps], fun w hw => ?_⟩
    simp only [Nat.add_one_ne_zero, if_false]
    rw [descend_congr w (fun ks => ks.flatMap spec) n hn (fun b k h1 h2 => by simpa using hw b k h1 h2)]
  | zero =>
    simp only [List.drop_zero, runOps]
    rcases h path fg n hn with ⟨e, h3⟩ | ⟨n', e, h1, h2, h3⟩
    · rw [e]
      refine .inl ⟨[], rfl, by simp, ?_, by simp [h3]⟩
      have := size_pos n
      simpa [Node.sizeL] using this
    · rw [e]
      refine .inr ⟨n', rfl, fun w hw => ?_⟩
      simp only [if_true]
      rw [h3, descend_congr w (fun ks => ks.flatMap spec) n' h1 (fun b k hk1 hk2 => by simpa using hw b k (by omega) hk2)]

end JH
