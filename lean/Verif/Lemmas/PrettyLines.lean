import Verif.Lemmas.PrettyOut

/-! Lemmas for C73: the line templates of the pretty printer. -/
namespace JH
open Spec

variable {U : Uni} {ctx : Option Str}

theorem plain_none (U : Uni) : PlainCtx U none := fun _ => rfl

theorem markup_plain (hp : PlainCtx U ctx) (n : Node) : markup U ctx n = markup U none n := by
  cases n with
  | text d => rw [markup, markup, hp, plain_none]
  | _ => rw [markup, markup]

theorem markupL_plain (hp : PlainCtx U ctx) (ns : List Node) : markupL U ctx ns = markupL U none ns := by
  induction ns with
  | nil => rfl
  | cons n ns ih => rw [markupL, markupL, ih, markup_plain hp]

theorem Out.fragment (hp : PlainCtx U ctx) {kids : List Node} {s : Str} (h : Out U none kids s) : Out U ctx [.doc kids] s := by
  obtain ⟨K, h1, h2, h3⟩ := h
  refine ⟨K, ?_, by rw [markupL_plain hp, h2], fun hr => h3 ?_⟩
  · have := Reformatted.fragment kids K [] [] h1 .nil
    rwa [List.append_nil] at this
  · simpa [ReadableL, Readable] using hr

mutual
/-- What is not rendered is blank. -/
theorem out_unrendered : ∀ (n : Node) (ctx : Option Str), PlainCtx U ctx → renders U n = false → Out U ctx [n] []
  | .text d, ctx, hp, h => by
    rw [renders, Bool.not_eq_false'] at h
    exact out_blank hp d [] (blankStr_spaces h) (by simp)
  | .doc kids, ctx, hp, h => by
    rw [renders] at h
    exact (out_unrenderedL kids h).fragment hp
  | .comment _, _, _, h => by simp [renders] at h
  | .pi _, _, _, h => by simp [renders] at h
  | .doctype _ _ _, _, _, h => by simp [renders] at h
  | .elem _ _ _ _ _ _, _, _, h => by simp [renders] at h
theorem out_unrenderedL : ∀ (ns : List Node), rendersL U ns = false → Out U none ns []
  | [], _ => out_empty
  | n :: ns, h => by
    rw [rendersL, Bool.or_eq_false_iff] at h
    exact (out_unrendered n none (plain_none U) h.1).append (out_unrenderedL ns h.2)
end

/-- The parts, put together, are a reformatted version of `A`. -/
def PartsOut (U : Uni) (ctx : Option Str) (ps : List PPart) (A : List Node) : Prop := ∀ s, catParts ps = some s → Out U ctx A s

/-- The lines, each on a new line, are a reformatted version of `A`. -/
def LinesOut (U : Uni) (ctx : Option Str) (ls : List PLine) (A : List Node) : Prop :=
  ∀ skip rs, renderLines skip ls = some rs → Out U ctx A (rs.flatMap fun r => '\n' :: r)

/-- The texts of the child are reformatted versions of it. -/
def KidOk (U : Uni) (ctx : Option Str) (k : Kid) : Prop :=
  (∀ s, k.deep = some s → Out U ctx [k.node] s) ∧ (∀ s, k.flat = some s → Out U ctx [k.node] s)

theorem partsOut_nil : PartsOut U ctx [] [] := fun s h => by
  simp only [catParts, Option.some.injEq] at h; subst h; exact out_empty

theorem partsOut_lit {s : Str} {ps : List PPart} {A B : List Node} (h : Out U ctx A s) (hs : PartsOut U ctx ps B) :
    PartsOut U ctx (.lit s :: ps) (A ++ B) := by
  intro t ht
  rw [catParts] at ht
  obtain ⟨b, hb, rfl⟩ := Option.map_eq_some_iff.1 ht
  exact h.append (hs b hb)

theorem partsOut_child {o : Option Str} {ps : List PPart} {A B : List Node} (h : ∀ s, o = some s → Out U ctx A s) (hs : PartsOut U ctx ps B) :
    PartsOut U ctx (.child o :: ps) (A ++ B) := by
  intro t ht
  cases o with
  | none => cases ht
  | some s =>
    rw [catParts] at ht
    obtain ⟨b, hb, rfl⟩ := Option.map_eq_some_iff.1 ht
    exact (h s rfl).append (hs b hb)

theorem catParts_append (a b : List PPart) (s : Str) (h : catParts (a ++ b) = some s) :
    ∃ x y, catParts a = some x ∧ catParts b = some y ∧ s = x ++ y := by
  induction a generalizing s with
  | nil => exact ⟨[], s, rfl, h, rfl⟩
  | cons p a ih =>
    match p with
    | .lit t =>
      rw [List.cons_append, catParts] at h
      obtain ⟨c, hc, rfl⟩ := Option.map_eq_some_iff.1 h
      obtain ⟨x, y, h1, h2, rfl⟩ := ih c hc
      exact ⟨t ++ x, y, by rw [catParts, h1]; rfl, h2, by simp⟩
    | .child none => cases h
    | .child (some t) =>
      rw [List.cons_append, catParts] at h
      obtain ⟨c, hc, rfl⟩ := Option.map_eq_some_iff.1 h
      obtain ⟨x, y, h1, h2, rfl⟩ := ih c hc
      exact ⟨t ++ x, y, by rw [catParts, h1]; rfl, h2, by simp⟩

theorem PartsOut.append {a b : List PPart} {A B : List Node} (h : PartsOut U ctx a A) (h' : PartsOut U ctx b B) :
    PartsOut U ctx (a ++ b) (A ++ B) := by
  intro s hs
  obtain ⟨x, y, h1, h2, rfl⟩ := catParts_append a b s hs
  exact (h x h1).append (h' y h2)

theorem linesOut_nil : LinesOut U ctx [] [] := fun _ rs h => by
  simp only [renderLines, Option.some.injEq] at h; subst h; exact out_empty

theorem linesOut_cons (hp : PlainCtx U ctx) {l : PLine} {ls : List PLine} {A B : List Node} (hl : ∀ c ∈ l.pre, U.isSpace c = true)
    (h : PartsOut U ctx l.parts A) (hs : LinesOut U ctx ls B) : LinesOut U ctx (l :: ls) (A ++ B) := by
  intro skip rs hr
  rw [renderLines] at hr
  cases h1 : catParts l.parts with
  | none => rw [h1] at hr; cases hr
  | some s0 =>
    cases h2 : renderLines skip ls with
    | none => rw [h1, h2] at hr; cases hr
    | some r =>
      rw [h1, h2] at hr
      simp only [Option.some.injEq] at hr
      have o1 : Out U ctx A (if l.strip then stripP (· = ' ') s0 else s0) := by
        split
        · exact out_strip hp (h s0 h1)
        · exact h s0 h1
      generalize (if l.strip then stripP (· = ' ') s0 else s0) = s at o1 hr
      subst hr
      split
      · rw [List.flatMap_cons]
        refine Out.append ?_ (hs skip r h2)
        have := out_pre hp ('\n' :: l.pre) (fun c hc => by
          rcases List.mem_cons.1 hc with rfl | hc
          · exact sp_newline U
          · exact hl c hc) o1
        simpa using this
      · rename_i hb
        have : s = [] := by
          simp only [Bool.or_eq_true, Bool.not_eq_true', not_or] at hb
          simpa using hb.1
        subst this
        exact o1.append (hs skip r h2)

theorem linesOut_blank {ls : List PLine} {A B : List Node} (h : Out U ctx A []) (hs : LinesOut U ctx ls B) : LinesOut U ctx ls (A ++ B) :=
  fun skip rs hr => h.append (hs skip rs hr)

theorem linesOut_child (hp : PlainCtx U ctx) {k : Kid} (hk : KidOk U ctx k) {ls : List PLine} {B : List Node} (hs : LinesOut U ctx ls B) :
    LinesOut U ctx (⟨[], [.child k.deep], false⟩ :: ls) (k.node :: B) := by
  refine linesOut_cons (A := [k.node]) hp (by simp) ?_ hs
  have := partsOut_child hk.1 partsOut_nil
  simpa using this

theorem linesOut_flush (hp : PlainCtx U ctx) {pre : Str} (hpre : ∀ c ∈ pre, U.isSpace c = true) {acc : List PPart} {A B : List Node}
    {ls : List PLine} (h : PartsOut U ctx acc A) (hs : LinesOut U ctx ls B) : LinesOut U ctx (flushParts pre acc ++ ls) (A ++ B) := by
  rw [flushParts]
  split
  · rename_i he
    rw [List.isEmpty_iff.1 he] at h
    exact linesOut_blank (h [] rfl) hs
  · exact linesOut_cons hp hpre h hs

theorem norm_out (hp : PlainCtx U ctx) (d : Str) : Out U ctx [.text d] (escapeText (normFormatting d)) :=
  out_text hp d _ (words_norm d).symm

theorem blankText_out (hp : PlainCtx U ctx) {n : Node} (h : blankText U n = true) (w : Str) (hw : ∀ c ∈ w, U.isSpace c = true) :
    Out U ctx [n] w := by
  cases n with
  | text d => exact out_blank hp d w (blankStr_spaces h) hw
  | _ => simp [blankText] at h

theorem filtered_lines (hp : PlainCtx U ctx) (q : Kid → Bool) (kids : List Kid) (hk : ∀ k ∈ kids, KidOk U ctx k)
    (hq : ∀ k ∈ kids, q k = false → Out U ctx [k.node] []) :
    LinesOut U ctx ((kids.filter q).map fun k => ⟨[], [.child k.deep], false⟩) (kids.map Kid.node) := by
  induction kids with
  | nil => exact linesOut_nil
  | cons k ks ih =>
    have ih := ih (fun x hx => hk x (by simp [hx])) (fun x hx => hq x (by simp [hx]))
    rw [List.map_cons]
    by_cases h : q k = true
    · rw [List.filter_cons_of_pos h, List.map_cons]
      exact linesOut_child hp (hk k (by simp)) ih
    · rw [List.filter_cons_of_neg h]
      exact linesOut_blank (hq k (by simp) (by simpa using h)) ih

theorem special_out (hp : PlainCtx U ctx) (special : Bool) (kids : List Kid) (hk : ∀ k ∈ kids, KidOk U ctx k) (ls : List PLine)
    (h : specialLines U special kids = some ls) : LinesOut U ctx ls (kids.map Kid.node) := by
  rw [specialLines] at h
  split at h
  · simp only [Option.some.injEq] at h
    subst h
    refine filtered_lines hp _ kids hk fun k _ hq => ?_
    simp only [Bool.and_eq_false_iff, Bool.not_eq_false'] at hq
    rcases hq with hq | hq
    · exact blankText_out hp hq [] (by simp)
    · exact out_unrendered _ ctx hp hq
  · cases h

theorem elementLines_out (hp : PlainCtx U ctx) {pre : Str} (hpre : ∀ c ∈ pre, U.isSpace c = true) (kids : List Kid)
    (hk : ∀ k ∈ kids, KidOk U ctx k) : LinesOut U ctx (elementLines U pre kids) (kids.map Kid.node) := by
  induction kids with
  | nil => exact linesOut_nil
  | cons k ks ih =>
    have ih := ih (fun x hx => hk x (by simp [hx]))
    have hk0 := hk k (by simp)
    rw [List.map_cons, elementLines]
    by_cases ht : isTextN k.node = true
    · cases hn : k.node with
      | text d =>
        dsimp only
        have hw : Out U ctx [.text d] (escapeText (collapsePretty U d)) := out_text hp d _ (words_collapse d).symm
        by_cases he : (collapsePretty U d).isEmpty = true
        · rw [if_pos he]
          rw [List.isEmpty_iff.1 he] at hw
          exact linesOut_blank (A := [.text d]) hw ih
        · rw [if_neg he]
          exact linesOut_cons (A := [.text d]) hp hpre (by simpa using partsOut_lit hw partsOut_nil) ih
      | _ => rw [hn] at ht; simp [isTextN] at ht
    · have key : LinesOut U ctx ((if renders U k.node then [⟨[], [.child k.deep], false⟩] else []) ++ elementLines U pre ks)
          (k.node :: ks.map Kid.node) := by
        by_cases hr : renders U k.node = true
        · rw [if_pos hr]; exact linesOut_child hp hk0 ih
        · rw [if_neg hr]; exact linesOut_blank (A := [k.node]) (out_unrendered _ ctx hp (by simpa using hr)) ih
      cases hn : k.node with
      | text d => rw [hn] at ht; simp [isTextN] at ht
      | _ => rw [hn] at key; exact key

theorem spaced_out (hp : PlainCtx U ctx) (indent size : Nat) (special : Bool) (kids : List Kid) (hk : ∀ k ∈ kids, KidOk U ctx k) (ls : List PLine)
    (h : spacedLines U indent size special kids = some ls) : LinesOut U ctx ls (kids.map Kid.node) := by
  rw [spacedLines] at h
  split at h
  · simp only [Option.some.injEq] at h
    subst h
    exact elementLines_out hp (indent_spaces U _ _) kids hk
  · cases h

theorem compact_out (hp : PlainCtx U ctx) (first : Bool) (kids : List Kid) (hk : ∀ k ∈ kids, KidOk U ctx k) :
    PartsOut U ctx (compactParts U first kids) (kids.map Kid.node) := by
  induction kids generalizing first with
  | nil => exact partsOut_nil
  | cons k ks ih =>
    have ih := fun f => ih f (fun x hx => hk x (by simp [hx]))
    have hk0 := hk k (by simp)
    rw [List.map_cons, compactParts]
    cases hn : k.node with
    | text d =>
      dsimp only
      split
      · rename_i h
        simp only [Bool.and_eq_true] at h
        exact fun s hs => by
          have := (out_blank hp d [] (blankStr_spaces h.1) (by simp)).append (ih false s hs)
          simpa using this
      · split
        · rename_i h
          simp only [Bool.and_eq_true] at h
          exact partsOut_lit (A := [.text d]) (out_blank hp d [' '] (blankStr_spaces h.1) (by simp [sp_blank])) (ih false)
        · exact partsOut_lit (A := [.text d]) (norm_out hp d) (ih false)
    | _ =>
      have := partsOut_child hk0.2 (ih false)
      rw [hn] at this
      exact this

theorem mixed_out (hp : PlainCtx U ctx) {pre : Str} (hpre : ∀ c ∈ pre, U.isSpace c = true) (kids : List Kid)
    (hk : ∀ k ∈ kids, KidOk U ctx k) : ∀ (first : Bool) (acc : List PPart) (A : List Node), PartsOut U ctx acc A →
    LinesOut U ctx (mixedLines U pre first acc kids) (A ++ kids.map Kid.node) := by
  induction kids with
  | nil =>
    intro first acc A h
    rw [mixedLines, List.map_nil]
    have := linesOut_flush hp hpre h linesOut_nil
    simpa using this
  | cons k ks ih =>
    intro first acc A h
    have ih := ih (fun x hx => hk x (by simp [hx]))
    have hk0 := hk k (by simp)
    rw [mixedLines]
    have step : ∀ p, PartsOut U ctx [p] [k.node] → LinesOut U ctx (mixedLines U pre false (acc ++ [p]) ks) (A ++ (k :: ks).map Kid.node) := by
      intro p hpp
      have := ih false (acc ++ [p]) (A ++ [k.node]) (h.append hpp)
      simpa using this
    have flush : ∀ ls, LinesOut U ctx ls ((k :: ks).map Kid.node) → LinesOut U ctx (flushParts pre acc ++ ls) (A ++ (k :: ks).map Kid.node) :=
      fun ls hl => linesOut_flush hp hpre h hl
    have other : LinesOut U ctx (if blocky layoutBlocks k.node then
        flushParts pre acc ++ ⟨[], [.child k.deep], false⟩ :: mixedLines U pre false [] ks
        else mixedLines U pre false (acc ++ [.child k.flat]) ks) (A ++ (k :: ks).map Kid.node) := by
      split
      · refine flush _ ?_
        rw [List.map_cons]
        exact linesOut_child hp hk0 (by simpa using ih false [] [] partsOut_nil)
      · exact step _ (by simpa using partsOut_child hk0.2 partsOut_nil)
    cases hn : k.node with
    | text d =>
      rw [hn] at step
      dsimp only
      split
      · rename_i hb
        split
        · have hb' : Out U ctx [k.node] [] := by rw [hn]; exact out_blank hp d [] (blankStr_spaces hb) (by simp)
          have h2 : PartsOut U ctx acc (A ++ [k.node]) := fun s hs => by
            have := (h s hs).append hb'
            simpa using this
          have := ih false acc _ h2
          simpa using this
        · split
          · refine flush _ ?_
            rw [List.map_cons, hn]
            exact linesOut_blank (A := [.text d]) (out_blank hp d [] (blankStr_spaces hb) (by simp))
              (by simpa using ih false [] [] partsOut_nil)
          · exact step _ (by simpa using partsOut_lit (out_blank hp d d (blankStr_spaces hb) (blankStr_spaces hb)) partsOut_nil)
      · exact step _ (by simpa using partsOut_lit (norm_out hp d) partsOut_nil)
    | _ => rw [hn] at other; exact other

theorem block_out (hp : PlainCtx U ctx) (indent size : Nat) (special : Bool) (kids : List Kid) (hk : ∀ k ∈ kids, KidOk U ctx k) (ls : List PLine)
    (h : blockLines U indent size special kids = some ls) : LinesOut U ctx ls (kids.map Kid.node) := by
  rw [blockLines] at h
  split at h
  · simp only [Option.some.injEq] at h
    subst h
    simpa using mixed_out hp (indent_spaces U _ _) kids hk true [] [] partsOut_nil
  · cases h

/-! ### Runs between separators -/

theorem fmtRuns_trail (items : List (Option Kid)) (hi : ∀ i ∈ items, i = none) : ∀ (cur : List Kid) (l : List (Option Kid)),
    (fmtRuns cur (l ++ items)).filter (fun r => !r.isEmpty) = (fmtRuns cur l).filter (fun r => !r.isEmpty) := by
  have nil : ∀ its : List (Option Kid), (∀ i ∈ its, i = none) → ∀ cur, (fmtRuns cur its).filter (fun r => !r.isEmpty) =
      [cur].filter (fun r => !r.isEmpty) := by
    intro its
    induction its with
    | nil => intro _ cur; rfl
    | cons i its ih =>
      intro h cur
      rw [h i (by simp), fmtRuns, List.filter_cons, ih (fun x hx => h x (by simp [hx])) []]
      by_cases hc : cur.isEmpty <;> simp [hc]
  intro cur l
  induction l generalizing cur with
  | nil => exact nil items hi cur
  | cons i l ih =>
    cases i with
    | none => rw [List.cons_append, fmtRuns, fmtRuns, List.filter_cons, List.filter_cons, ih]
    | some k => rw [List.cons_append, fmtRuns, fmtRuns, ih]

theorem fmtRuns_lead (items : List (Option Kid)) : (fmtRuns [] (items.dropWhile Option.isNone)).filter (fun r => !r.isEmpty) =
    (fmtRuns [] items).filter (fun r => !r.isEmpty) := by
  induction items with
  | nil => rfl
  | cons i items ih =>
    cases i with
    | none => rw [List.dropWhile_cons_of_pos rfl, ih, fmtRuns]; simp
    | some k => rw [List.dropWhile_cons_of_neg (by simp)]

theorem fmtRuns_rtrim (items : List (Option Kid)) : (fmtRuns [] (items.reverse.dropWhile Option.isNone).reverse).filter (fun r => !r.isEmpty) =
    (fmtRuns [] items).filter (fun r => !r.isEmpty) := by
  have h : items = (items.reverse.dropWhile Option.isNone).reverse ++ (items.reverse.takeWhile Option.isNone).reverse := by
    rw [← List.reverse_append, List.takeWhile_append_dropWhile, List.reverse_reverse]
  have hn : ∀ l : List (Option Kid), ∀ i ∈ l.takeWhile Option.isNone, i = none := by
    intro l
    induction l with
    | nil => simp
    | cons x l ih =>
      intro i hi
      cases x with
      | none =>
        rw [List.takeWhile_cons_of_pos rfl] at hi
        rcases List.mem_cons.1 hi with rfl | hi
        · rfl
        · exact ih i hi
      | some y => rw [List.takeWhile_cons_of_neg (by simp)] at hi; simp at hi
  conv => rhs; rw [h]
  exact (fmtRuns_trail _ (fun i hi => hn items.reverse i (by simpa using hi)) [] _).symm

theorem runs_eq (U : Uni) (kids : List Kid) : runsOf U kids = (fmtRuns [] (fmtItems U false kids)).filter fun r => !r.isEmpty := by
  rw [runsOf]
  rw [fmtRuns_rtrim, fmtRuns_lead]

theorem runParts_out (hp : PlainCtx U ctx) (run : List Kid) (hk : ∀ k ∈ run, KidOk U ctx k) :
    PartsOut U ctx (run.map (runPart U)) (run.map Kid.node) := by
  induction run with
  | nil => exact partsOut_nil
  | cons k ks ih =>
    have ih := ih (fun x hx => hk x (by simp [hx]))
    have hk0 := hk k (by simp)
    rw [List.map_cons, List.map_cons, runPart]
    cases hn : k.node with
    | text d =>
      dsimp only
      refine partsOut_lit (A := [.text d]) ?_ ih
      split
      · rename_i hb; exact out_blank hp d d (blankStr_spaces hb) (blankStr_spaces hb)
      · exact norm_out hp d
    | _ => have := partsOut_child hk0.2 ih; rw [hn] at this; exact this

theorem runLine_out (hp : PlainCtx U ctx) (indent size : Nat) (run : List Kid) (hk : ∀ k ∈ run, KidOk U ctx k) {ls : List PLine} {B : List Node}
    (hs : LinesOut U ctx ls B) : LinesOut U ctx (runLine U indent size run :: ls) (run.map Kid.node ++ B) := by
  have inl : LinesOut U ctx (⟨prettyIndent (indent + 1) size, run.map (runPart U), false⟩ :: ls) (run.map Kid.node ++ B) :=
    linesOut_cons hp (indent_spaces U _ _) (runParts_out hp run hk) hs
  match run with
  | [] => exact inl
  | [k] =>
    rw [runLine]
    split
    · exact inl
    · exact linesOut_child hp (hk k (by simp)) hs
  | _ :: _ :: _ => exact inl

theorem fmtRuns_out (hp : PlainCtx U ctx) (indent size : Nat) (kids : List Kid) (hk : ∀ k ∈ kids, KidOk U ctx k) :
    ∀ (last : Bool) (cur : List Kid), (∀ k ∈ cur, KidOk U ctx k) → (last = true → cur = []) →
    LinesOut U ctx (((fmtRuns cur (fmtItems U last kids)).filter fun r => !r.isEmpty).map (runLine U indent size))
      (cur.map Kid.node ++ kids.map Kid.node) := by
  have single : ∀ (cur : List Kid), (∀ k ∈ cur, KidOk U ctx k) → ∀ (rs : List (List Kid)) (B : List Node),
      LinesOut U ctx ((rs.filter fun r => !r.isEmpty).map (runLine U indent size)) B →
      LinesOut U ctx (((cur :: rs).filter fun r => !r.isEmpty).map (runLine U indent size)) (cur.map Kid.node ++ B) := by
    intro cur hc rs B hB
    cases cur with
    | nil => exact hB
    | cons c cs =>
      rw [List.filter_cons_of_pos (by rfl), List.map_cons]
      exact runLine_out hp indent size _ hc hB
  induction kids with
  | nil =>
    intro last cur hc _
    exact single cur hc [] [] linesOut_nil
  | cons k ks ih =>
    intro last cur hc hl
    have ih := ih (fun x hx => hk x (by simp [hx]))
    rw [fmtItems]
    by_cases hs : sepText U k.node = true
    · rw [if_pos hs]
      have hb : Out U ctx [k.node] [] := by
        cases hn : k.node with
        | text d =>
          rw [hn] at hs
          simp only [sepText, Bool.and_eq_true] at hs
          exact out_blank hp d [] (blankStr_spaces hs.1) (by simp)
        | _ => rw [hn] at hs; simp [sepText] at hs
      have rest := linesOut_blank hb (ih true [] (by simp) (fun _ => rfl))
      by_cases hla : last = true
      · rw [if_pos hla, hl hla]
        simpa using rest
      · rw [if_neg hla, fmtRuns]
        have := single cur hc _ _ rest
        simpa using this
    · rw [if_neg hs, fmtRuns]
      have := ih false (cur ++ [k]) (fun x hx => by
        rcases List.mem_append.1 hx with hx | hx
        · exact hc x hx
        · exact hk x (by simpa using Or.inl (List.mem_singleton.1 hx))) (by simp)
      simpa using this

theorem separated_out (hp : PlainCtx U ctx) (indent size : Nat) (special : Bool) (kids : List Kid) (hk : ∀ k ∈ kids, KidOk U ctx k)
    (ls : List PLine) (h : separatedLines U indent size special kids = some ls) : LinesOut U ctx ls (kids.map Kid.node) := by
  rw [separatedLines] at h
  split at h
  · simp only [Option.some.injEq] at h
    subst h
    rw [runs_eq]
    simpa using fmtRuns_out hp indent size kids hk false [] (by simp) (fun _ => rfl)
  · cases h

end JH
