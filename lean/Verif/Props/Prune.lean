import Verif.Props.TransNodes
import Verif.Props.LinkHost
/-! C90: pruning of empty elements. -/
namespace JH
open Spec

theorem strip_empty (sp : Char → Bool) (d : Str) : (stripP sp d).isEmpty = !d.any fun c => !sp c := by
  rw [Bool.eq_iff_iff, List.isEmpty_iff]
  simp only [Bool.not_eq_true', List.any_eq_false, Bool.not_eq_true', Bool.not_eq_false]
  constructor
  · intro h c hc
    obtain ⟨l, r, e, h2⟩ := stripP_decomp sp d
    rw [h, List.append_nil] at e
    rw [e] at hc
    exact h2 c hc
  · intro h
    cases hs : stripP sp d with
    | nil => rfl
    | cons x xs =>
      have h1 := stripP_head sp d x (by rw [hs]; rfl)
      have h2 := h x (stripP_sub sp d x (by rw [hs]; simp))
      rw [h1] at h2
      simp at h2

theorem hasContent_eq (U : Uni) (strip : Bool) (l : List Node) (h : ∀ n ∈ l, NamedTree n) : hasContent U strip l = l.any (fills U.isSpace strip) := by
  unfold hasContent
  induction l with
  | nil => rfl
  | cons n ns ih =>
    rw [List.any_cons, List.any_cons, ih fun m hm => h m (by simp [hm])]
    congr 1
    cases n with
    | elem name ns as kids tpl content => simp only [fills, nodeName]; exact decide_eq_true (h _ List.mem_cons_self).name.1
    | text d =>
      cases strip
      · cases d <;> simp [fills]
      · simp [fills, strip_empty]
    | _ => simp [fills, nodeName]

theorem emptyElem_eq (U : Uni) (strip : Bool) {name : Str} {ns : Option Str} {as : Attrs} {kids : List Node} {tpl : Bool} {content : List Node}
    (h : NamedTree (.elem name ns as kids tpl content)) :
    isEmptyElem U strip (.elem name ns as kids tpl content) = emptyElem U.lower U.isSpace strip (.elem name ns as kids tpl content) := by
  simp only [isEmptyElem, emptyElem, pruneVoid, hasContent_eq U strip kids h.kids]
  cases tpl with
  | false => simp [contents]
  | true => simp [contents, hasContent_eq U strip content h.content, List.any_append, Bool.and_assoc]

/-- The `PruneEmpty` transforms of a batch: what each matches, and whether white space counts. -/
abbrev PruneBatch := List ((Str → Option Str → List (Str × Option Str) → Bool) × Bool)

/-- The element is empty, for one of the transforms of the batch that match it. -/
def Spec.prunable (lower : Str → Str) (sp : Char → Bool) (batch : PruneBatch) (n : Node) : Bool :=
  batch.any fun b => elemIs b.1 n && emptyElem lower sp b.2 n

mutual
theorem pruneUpIn_named (g : Node → Bool) : ∀ n, NamedTree n → NamedTree (pruneUpIn g n)
  | .elem name ns as kids tpl content, h => by
    rw [pruneUpIn]
    refine NamedTree.mk h.name (pruneUp_named g kids h.kids) ?_
    rintro rfl
    exact pruneUp_named g content h.content
  | .doc kids, h => by
    have := pruneUp_named g kids h.doc
    simp only [pruneUpIn, NamedTree, Everywhere]
    exact ⟨fun _ _ _ _ _ _ e => by simp at e, (everywhereL_iff _ _).2 this⟩
  | .text _, h => h
  | .comment _, h => h
  | .pi _, h => h
  | .doctype _ _ _, h => h
theorem pruneUp_named (g : Node → Bool) : ∀ l, (∀ n ∈ l, NamedTree n) → ∀ n ∈ pruneUp g l, NamedTree n
  | [], _, _, h => by simp [pruneUp] at h
  | a :: l, h, n, hn => by
    have h1 := pruneUpIn_named g a (h a (by simp))
    have h2 := pruneUp_named g l fun m hm => h m (by simp [hm])
    rw [pruneUp] at hn
    split at hn
    · exact h2 n hn
    · rcases List.mem_cons.1 hn with e | hn
      · rw [e]; exact h1
      · exact h2 n hn
end

/-- The selectors of a batch look at the element itself, and match no doctypes. -/
def BatchOk : List (NodeSel × Bool) → PruneBatch → Prop
  | [], [] => True
  | s :: ss, b :: bs => s.2 = b.2 ∧ (∀ path name ns as kids tpl content, s.1 path (.elem name ns as kids tpl content) = b.1 name ns as) ∧
      (∀ path x y z, s.1 path (.doctype x y z) = false) ∧ BatchOk ss bs
  | _, _ => False

theorem pruned_eq (U : Uni) (sels : List (NodeSel × Bool)) (batch : PruneBatch) (hb : BatchOk sels batch) (path : List Frame) (n : Node) (hn : NamedTree n) :
    pruned U sels path n = prunable U.lower U.isSpace batch n := by
  have key : (sels.any fun p => p.1 path n && isEmptyElem U p.2 n) = prunable U.lower U.isSpace batch n := by
    induction sels generalizing batch with
    | nil =>
      cases batch with
      | nil => rfl
      | cons => simp [BatchOk] at hb
    | cons s sels ih =>
      cases batch with
      | nil => simp [BatchOk] at hb
      | cons b batch =>
        simp only [BatchOk] at hb
        obtain ⟨h1, h2, h3, h4⟩ := hb
        rw [List.any_cons, prunable, List.any_cons, ih batch h4, prunable]
        congr 1
        cases n with
        | elem name ns as kids tpl content => rw [h2, h1, emptyElem_eq U b.2 hn]; rfl
        | doctype x y z => rw [h3]; simp [elemIs]
        | _ => simp [isEmptyElem, elemIs]
  unfold pruned
  cases n with
  | elem name ns as kids tpl content =>
    rw [key]; simp [nodeName, hn.name.1]
  | doctype x y z =>
    rw [key]; simp [nodeName]
  | _ => simp [nodeName, prunable, elemIs]

mutual
theorem pruneIn_eq (U : Uni) (sels : List (NodeSel × Bool)) (batch : PruneBatch) (hb : BatchOk sels batch) : ∀ n, NamedTree n → ∀ up left right,
    pruneIn U sels up left right n = pruneUpIn (prunable U.lower U.isSpace batch) n
  | .elem name ns as kids tpl content, h, up, left, right => by
    have h1 := pruneL_eq U sels batch hb kids h.kids
    rw [pruneIn, pruneUpIn, h1]
    cases tpl with
    | false => simp
    | true => simp [pruneL_eq U sels batch hb content h.content]
  | .doc kids, h, up, left, right => by
    rw [pruneIn, pruneUpIn, pruneL_eq U sels batch hb kids h.doc]; simp
  | .text _, _, _, _, _ => by simp [pruneIn, pruneUpIn]
  | .comment _, _, _, _, _ => by simp [pruneIn, pruneUpIn]
  | .pi _, _, _, _, _ => by simp [pruneIn, pruneUpIn]
  | .doctype _ _ _, _, _, _, _ => by simp [pruneIn, pruneUpIn]
theorem pruneL_eq (U : Uni) (sels : List (NodeSel × Bool)) (batch : PruneBatch) (hb : BatchOk sels batch) : ∀ l, (∀ n ∈ l, NamedTree n) → ∀ up left,
    pruneL U sels up left l = left.reverse ++ pruneUp (prunable U.lower U.isSpace batch) l
  | [], _, _, _ => by simp [pruneL, pruneUp]
  | n :: ns, h, up, left => by
    have h1 := pruneIn_eq U sels batch hb n (h n (by simp))
    have h2 := pruneL_eq U sels batch hb ns fun m hm => h m (by simp [hm])
    rw [pruneL, pruneUp, h1, pruned_eq U sels batch hb _ _ (pruneUpIn_named _ n (h n (by simp)))]
    split
    · exact h2 up left
    · rw [h2]; simp
end

theorem runCT_prunes (R : TransEnv) (fuel : List Node → Nat) (kids : List Node) : ∀ (ps : List (Str × Bool)) (b : List (NodeSel × Bool)), b ≠ [] →
    runCT R fuel [] b (ps.map fun p => CT.prune p.1 p.2) kids = pruneL R.S.E.U (b.reverse ++ ps.map fun p => (R.sel p.1, p.2)) [] [] kids := by
  intro ps
  induction ps with
  | nil =>
    intro b hb
    have : b.isEmpty = false := by simpa using hb
    simp [runCT, runCT.finishWalk, runCT.finishPrune, this, runWalk]
  | cons p ps ih =>
    intro b hb
    have : b.isEmpty = false := by simpa using hb
    rw [List.map_cons, runCT, this]
    simp only [Bool.false_eq_true, if_false]
    rw [ih _ (by simp)]
    simp

theorem flatten_ones (l : List (Bool × Trans)) : flattenSpecs (l.map fun p => .one p.1 p.2) = l := by
  induction l with
  | nil => simp [flattenSpecs]
  | cons a l ih => simp [flattenSpecs, flattenSpec, ih]

theorem no_stages (l : List (Bool × Trans)) : (l.map fun p => TransSpec.one p.1 p.2).any TransSpec.isStage = false := by
  rw [List.any_eq_false]
  intro x hx
  obtain ⟨y, -, rfl⟩ := List.mem_map.1 hx
  simp [TransSpec.isStage]

theorem transform_prune (R : TransEnv) (fuel : List Node → Nat) (ps : List (Str × Bool)) (kids : List Node) (hne : ps ≠ []) :
    transform R fuel (ps.map fun p => .one true (.pruneEmpty p.1 p.2)) kids = pruneL R.S.E.U (ps.map fun p => (R.sel p.1, p.2)) [] [] kids := by
  have hc : compileT R (ps.map fun p => .one true (.pruneEmpty p.1 p.2)) = ps.map fun p => CT.prune p.1 p.2 := by
    have e : (ps.map fun p => TransSpec.one true (.pruneEmpty p.1 p.2)) = (ps.map fun p => (true, Trans.pruneEmpty p.1 p.2)).map fun q => .one q.1 q.2 := by
      simp
    rw [compileT, e, no_stages, if_neg (by simp), flatten_ones, lowerAll, List.foldl_map]
    simp only [if_true, lowerT]
    have : ∀ (ps : List (Str × Bool)) (acc : List CT), ps.foldl (fun x y => CT.prune y.1 y.2 :: x) acc = (ps.map fun p => CT.prune p.1 p.2).reverse ++ acc := by
      intro ps
      induction ps with
      | nil => intro acc; rfl
      | cons p ps ih => intro acc; rw [List.foldl_cons, ih]; simp
    rw [this]
    simp
  rw [transform, hc]
  cases ps with
  | nil => exact absurd rfl hne
  | cons p ps =>
    rw [List.map_cons, runCT]
    simp only [List.isEmpty_nil, if_true]
    rw [runCT_prunes R fuel _ ps _ (by simp)]
    simp [runCT.finishWalk, runWalk]

/-- C90: `PruneEmpty` transforms, one or several, remove from the inside out exactly the elements that one of them matches and that contain nothing but
(for `strip_whitespace`) blank text, and comments. HTML void elements are kept. -/
theorem C90_exact_partial (R : TransEnv) (fuel : List Node → Nat) (ps : List (Str × Bool)) (batch : PruneBatch) (kids : List Node) (hne : ps ≠ [])
    (hb : BatchOk (ps.map fun p => (R.sel p.1, p.2)) batch) (hk : ∀ k ∈ kids, Everywhere WellNamed k) :
    transform R fuel (ps.map fun p => .one true (.pruneEmpty p.1 p.2)) kids = pruneUp (prunable R.S.E.U.lower R.S.E.U.isSpace batch) kids := by
  rw [transform_prune R fuel ps kids hne, pruneL_eq R.S.E.U _ batch hb kids hk]
  rfl

theorem pruneUp_mem (g : Node → Bool) : ∀ l x, x ∈ pruneUp g l → ∃ n ∈ l, x = pruneUpIn g n ∧ g x = false := by
  intro l
  induction l with
  | nil => intro x hx; simp [pruneUp] at hx
  | cons n ns ih =>
    intro x hx
    rw [pruneUp] at hx
    split at hx
    · obtain ⟨m, hm, h⟩ := ih x hx
      exact ⟨m, by simp [hm], h⟩
    · rename_i hn
      rcases List.mem_cons.1 hx with rfl | hx
      · exact ⟨n, by simp, rfl, by simpa using hn⟩
      · obtain ⟨m, hm, h⟩ := ih x hx
        exact ⟨m, by simp [hm], h⟩

theorem pruneUp_reach (g : Node → Bool) (m : Node) (l : List Node) (h : Reach m l) : ∀ kids, l = pruneUp g kids → g m = false := by
  induction h with
  | here h =>
    rintro kids rfl
    obtain ⟨n, -, -, h⟩ := pruneUp_mem g _ _ h
    exact h
  | kid h1 h2 h3 ih =>
    rintro kids rfl
    obtain ⟨n, -, e, -⟩ := pruneUp_mem g _ _ h1
    cases n <;> simp [pruneUpIn] at e
    exact ih _ e.2.2.2.1
  | content h1 h2 h3 ih =>
    rintro kids rfl
    obtain ⟨n, -, e, -⟩ := pruneUp_mem g _ _ h1
    cases n <;> simp [pruneUpIn] at e
    obtain ⟨-, -, -, -, rfl, e⟩ := e
    exact ih _ (by simpa using e)
  | doc h1 h2 ih =>
    rintro kids rfl
    obtain ⟨n, -, e, -⟩ := pruneUp_mem g _ _ h1
    cases n <;> simp [pruneUpIn] at e
    exact ih _ e

/-- C90: afterwards no empty element that one of the transforms matches is left, at any depth: also none that became empty by the pruning. -/
theorem C90_none_left (R : TransEnv) (fuel : List Node → Nat) (ps : List (Str × Bool)) (batch : PruneBatch) (kids : List Node) (hne : ps ≠ [])
    (hb : BatchOk (ps.map fun p => (R.sel p.1, p.2)) batch) (hk : ∀ k ∈ kids, Everywhere WellNamed k) (m : Node)
    (hm : Reach m (transform R fuel (ps.map fun p => .one true (.pruneEmpty p.1 p.2)) kids)) (p : Str → Option Str → List (Str × Option Str) → Bool) (strip : Bool)
    (hp : (p, strip) ∈ batch) (hpm : elemIs p m = true) : emptyElem R.S.E.U.lower R.S.E.U.isSpace strip m = false := by
  rw [C90_exact_partial R fuel ps batch kids hne hb hk] at hm
  have := pruneUp_reach _ m _ hm kids rfl
  rw [prunable, List.any_eq_false] at this
  have := this _ hp
  simpa [hpm] using this

/-! ### What is kept -/

/-- The tree has documents and fragments at its root only. -/
def Spec.NoDoc (n : Node) : Prop := ∀ ks, n ≠ .doc ks

theorem NoDoc.mk {name : Str} {ns : Option Str} {as : Attrs} {kids : List Node} {tpl : Bool} {content : List Node} (hk : ∀ k ∈ kids, Everywhere NoDoc k)
    (hc : tpl = true → ∀ k ∈ content, Everywhere NoDoc k) : Everywhere NoDoc (.elem name ns as kids tpl content) := by
  simp only [Everywhere]
  exact ⟨fun _ e => by simp at e, (everywhereL_iff _ _).2 hk, fun h => (everywhereL_iff _ _).2 (hc h)⟩

theorem NoDoc.kids {name : Str} {ns : Option Str} {as : Attrs} {kids : List Node} {tpl : Bool} {content : List Node}
    (h : Everywhere NoDoc (.elem name ns as kids tpl content)) : ∀ k ∈ kids, Everywhere NoDoc k := by
  simp only [Everywhere] at h
  exact (everywhereL_iff _ _).1 h.2.1

theorem NoDoc.content {name : Str} {ns : Option Str} {as : Attrs} {kids : List Node} {content : List Node}
    (h : Everywhere NoDoc (.elem name ns as kids true content)) : ∀ k ∈ content, Everywhere NoDoc k := by
  simp only [Everywhere] at h
  exact (everywhereL_iff _ _).1 (h.2.2 trivial)

theorem NoDoc.no {ks : List Node} (h : Everywhere NoDoc (.doc ks)) : False := by
  simp only [Everywhere] at h
  exact h.1 ks rfl

mutual
theorem pruneUpIn_nodoc (g : Node → Bool) : ∀ n, Everywhere NoDoc n → Everywhere NoDoc (pruneUpIn g n)
  | .elem name ns as kids tpl content, h => by
    rw [pruneUpIn]
    refine NoDoc.mk (pruneUp_nodoc g kids (NoDoc.kids h)) ?_
    rintro rfl
    exact pruneUp_nodoc g content (NoDoc.content h)
  | .doc kids, h => (NoDoc.no h).elim
  | .text _, h => h
  | .comment _, h => h
  | .pi _, h => h
  | .doctype _ _ _, h => h
theorem pruneUp_nodoc (g : Node → Bool) : ∀ l, (∀ n ∈ l, Everywhere NoDoc n) → ∀ n ∈ pruneUp g l, Everywhere NoDoc n
  | [], _, _, h => by simp [pruneUp] at h
  | a :: l, h, n, hn => by
    have h1 := pruneUpIn_nodoc g a (h a (by simp))
    have h2 := pruneUp_nodoc g l fun m hm => h m (by simp [hm])
    rw [pruneUp] at hn
    split at hn
    · exact h2 n hn
    · rcases List.mem_cons.1 hn with e | hn
      · rw [e]; exact h1
      · exact h2 n hn
end

mutual
theorem pruneUpIn_text (g : Node → Bool) (f : Char → Bool) (hg : ∀ n, Everywhere NoDoc n → g n = true → (keptText (fun _ => false) n).filter f = []) : ∀ n,
    Everywhere NoDoc n → (keptText (fun _ => false) (pruneUpIn g n)).filter f = (keptText (fun _ => false) n).filter f
  | .elem name ns as kids tpl content, h => by
    have h1 := pruneUp_text g f hg kids (NoDoc.kids h)
    cases tpl with
    | false => simp [pruneUpIn, keptText, h1]
    | true => simp [pruneUpIn, keptText, h1, pruneUp_text g f hg content (NoDoc.content h)]
  | .doc kids, h => (NoDoc.no h).elim
  | .text _, _ => rfl
  | .comment _, _ => rfl
  | .pi _, _ => rfl
  | .doctype _ _ _, _ => rfl
theorem pruneUp_text (g : Node → Bool) (f : Char → Bool) (hg : ∀ n, Everywhere NoDoc n → g n = true → (keptText (fun _ => false) n).filter f = []) : ∀ l,
    (∀ n ∈ l, Everywhere NoDoc n) → (keptTextL (fun _ => false) (pruneUp g l)).filter f = (keptTextL (fun _ => false) l).filter f
  | [], _ => rfl
  | n :: ns, h => by
    have h1 := pruneUpIn_text g f hg n (h n (by simp))
    have h2 := pruneUp_text g f hg ns fun m hm => h m (by simp [hm])
    have h3 := pruneUpIn_nodoc g n (h n (by simp))
    rw [pruneUp]
    split
    · rename_i h
      rw [h2, keptTextL, List.filter_append, ← h1, hg _ h3 h]
      rfl
    · simp only [keptTextL, List.filter_append, h1, h2]
end

theorem empty_text (lower : Str → Str) (sp : Char → Bool) (strip : Bool) (n : Node) (hn : Everywhere NoDoc n) (h : emptyElem lower sp strip n = true) :
    (keptText (fun _ => false) n).filter (fun c => !strip || !sp c) = [] := by
  cases n with
  | elem name ns as kids tpl content =>
    simp only [emptyElem, Bool.and_eq_true, Bool.not_eq_true', List.any_eq_false] at h
    have key : ∀ l : List Node, (∀ k ∈ l, k ∈ contents (.elem name ns as kids tpl content)) → (∀ k ∈ l, Everywhere NoDoc k) →
        (keptTextL (fun _ => false) l).filter (fun c => !strip || !sp c) = [] := by
      intro l
      induction l with
      | nil => intro _ _; rfl
      | cons k l ih =>
        intro hl hd
        rw [keptTextL, List.filter_append, ih (fun x hx => hl x (by simp [hx])) (fun x hx => hd x (by simp [hx])), List.append_nil]
        have hk := h.2 k (hl k (by simp))
        cases k with
        | text d =>
          simp only [fills, Bool.not_eq_true, List.any_eq_false] at hk
          simp only [keptText, List.filter_eq_nil_iff]
          exact fun c hc => by rw [hk c hc]; simp
        | doc ks => exact (NoDoc.no (hd _ List.mem_cons_self)).elim
        | elem => simp [fills] at hk
        | doctype => simp [fills] at hk
        | _ => rfl
    simp only [keptText, Bool.false_eq_true, if_false, List.filter_append]
    rw [key kids (fun k hk => by cases tpl <;> simp [contents, hk]) (NoDoc.kids hn)]
    cases tpl with
    | false => rfl
    | true => simpa using key content (fun k hk => by simp [contents, hk]) (NoDoc.content hn)
  | _ => simp [emptyElem] at h

/-- C90: no text is lost but blank text: the text of the tree without white space is the same as before, and with `strip_whitespace=False` (for all
transforms of the batch) all the text is. -/
theorem C90_text (R : TransEnv) (fuel : List Node → Nat) (ps : List (Str × Bool)) (batch : PruneBatch) (kids : List Node) (hne : ps ≠ [])
    (hb : BatchOk (ps.map fun p => (R.sel p.1, p.2)) batch) (hk : ∀ k ∈ kids, Everywhere WellNamed k) (hd : ∀ k ∈ kids, Everywhere NoDoc k)
    (strip : Bool) (hs : ∀ b ∈ batch, b.2 = true → strip = true) :
    (keptTextL (fun _ => false) (transform R fuel (ps.map fun p => .one true (.pruneEmpty p.1 p.2)) kids)).filter (fun c => !strip || !R.S.E.U.isSpace c) =
      (keptTextL (fun _ => false) kids).filter (fun c => !strip || !R.S.E.U.isSpace c) := by
  rw [C90_exact_partial R fuel ps batch kids hne hb hk]
  refine pruneUp_text _ _ ?_ kids hd
  intro n hn hg
  rw [prunable, List.any_eq_true] at hg
  obtain ⟨b, hbm, hg⟩ := hg
  simp only [Bool.and_eq_true] at hg
  have h1 := empty_text _ _ _ n hn hg.2
  rw [List.filter_eq_nil_iff] at h1 ⊢
  intro c hc
  have h2 := h1 c hc
  have h3 := hs b hbm
  cases hbs : b.2 <;> cases strip <;> simp_all

/-! ### Once is enough -/

mutual
theorem pruneUpIn_fix (g : Node → Bool) : ∀ n, pruneUpIn g (pruneUpIn g n) = pruneUpIn g n
  | .elem name ns as kids tpl content => by
    have h1 := pruneUp_fix g kids
    cases tpl with
    | false => simp [pruneUpIn, h1]
    | true => simp [pruneUpIn, h1, pruneUp_fix g content]
  | .doc kids => by simp [pruneUpIn, pruneUp_fix g kids]
  | .text _ => rfl
  | .comment _ => rfl
  | .pi _ => rfl
  | .doctype _ _ _ => rfl
theorem pruneUp_fix (g : Node → Bool) : ∀ l, pruneUp g (pruneUp g l) = pruneUp g l
  | [] => rfl
  | n :: ns => by
    have h1 := pruneUpIn_fix g n
    have h2 := pruneUp_fix g ns
    rw [pruneUp]
    split
    · exact h2
    · rename_i h
      rw [pruneUp, h1, if_neg h, h2]
end

/-- C90: pruning a second time changes nothing. -/
theorem C90_idempotent (R : TransEnv) (fuel : List Node → Nat) (ps : List (Str × Bool)) (batch : PruneBatch) (kids : List Node) (hne : ps ≠ [])
    (hb : BatchOk (ps.map fun p => (R.sel p.1, p.2)) batch) (hk : ∀ k ∈ kids, Everywhere WellNamed k) :
    transform R fuel (ps.map fun p => .one true (.pruneEmpty p.1 p.2)) (transform R fuel (ps.map fun p => .one true (.pruneEmpty p.1 p.2)) kids) =
      transform R fuel (ps.map fun p => .one true (.pruneEmpty p.1 p.2)) kids := by
  have h1 := C90_exact_partial R fuel ps batch kids hne hb hk
  rw [h1]
  rw [C90_exact_partial R fuel ps batch _ hne hb (pruneUp_named _ kids hk), pruneUp_fix]

/-- `<div><p> <b></b></p><br><i>x</i></div>`, for the example. -/
def samplePrune : List Node :=
  [.elem c%"div" (some c%"html") [] [.elem c%"p" (some c%"html") [] [.text c%" ", .elem c%"b" (some c%"html") [] [] false []] false [],
    .elem c%"br" (some c%"html") [] [] false [], .elem c%"i" (some c%"html") [] [.text c%"x"] false []] false []]

example : transform TransEnv.sample fuelFor [.one true (.pruneEmpty c%"p" true), .one true (.pruneEmpty c%"b" false)] samplePrune =
    [.elem c%"div" (some c%"html") [] [.elem c%"br" (some c%"html") [] [] false [], .elem c%"i" (some c%"html") [] [.text c%"x"] false []] false []] := by
  rw [show [TransSpec.one true (.pruneEmpty c%"p" true), .one true (.pruneEmpty c%"b" false)] =
    [(c%"p", true), (c%"b", false)].map fun p => .one true (.pruneEmpty p.1 p.2) from rfl]
  rw [C90_exact_partial TransEnv.sample fuelFor [(c%"p", true), (c%"b", false)] [(fun name _ _ => name = c%"p", true), (fun name _ _ => name = c%"b", false)] samplePrune (by simp)
    ⟨rfl, sample_tag c%"p" (by decide), fun _ _ _ _ => rfl, rfl, sample_tag c%"b" (by decide), fun _ _ _ _ => rfl, trivial⟩ (namedBL_iff _ (by decide))]
  with_unfolding_all rfl

/-- C90 is false of selectors that match doctypes, as `*` does (F58): the doctype is removed, although it is not an element. -/
theorem C90_doctype_fails : ¬ ∀ (R : TransEnv) (fuel : List Node → Nat) (s : Str) (p : Str → Option Str → Attrs → Bool) (kids : List Node), OwnSel R s p →
    (∀ k ∈ kids, Everywhere WellNamed k) →
    transform R fuel [.one true (.pruneEmpty s true)] kids = pruneUp (prunable R.S.E.U.lower R.S.E.U.isSpace [(p, true)]) kids := by
  intro h
  have := h ⟨SanEnv.sample, LinkEnv.sample, fun _ _ _ => true⟩ fuelFor c%"*" (fun _ _ _ => true) [.doctype c%"html" none none] (fun _ _ _ _ _ _ _ => rfl)
    (namedBL_iff _ (by decide))
  have h2 := congrArg List.length this
  revert h2
  decide +kernel

end JH
