import Verif.Lemmas.SelInv
/-! `_text_content` computes the text of the tree below a node. -/
namespace JH
open Spec

variable {U : Uni} {h : Heap} {S : Compound → Prop} {D : Nat} {sat : Compound → Nat → Prop} {E : SErr → Prop}

/-- The loop either raises, or gets to the stack `st'` with a context that satisfies `post`. -/
def TextRun (U : Uni) (h : Heap) (I : SCtx → Prop) (E : SErr → Prop) (f : Nat) (st : List (Nat × Bool)) (vis : List Nat) (c : SCtx)
    (st' : List (Nat × Bool)) (vis' : List Nat) (post : SCtx → Prop) : Prop :=
  (I (textLoop U h f st vis c).2 ∧ ∃ e, (textLoop U h f st vis c).1 = .error e ∧ E e) ∨
    ∃ f' c', I c' ∧ post c' ∧ textLoop U h f st vis c = textLoop U h f' st' vis' c'

theorem TextRun.trans {I : SCtx → Prop} {f : Nat} {st st1 st2 : List (Nat × Bool)} {vis vis1 vis2 : List Nat} {c : SCtx} {post post2 : SCtx → Prop}
    (h1 : TextRun U h I E f st vis c st1 vis1 post)
    (h2 : ∀ f' c', I c' → post c' → TextRun U h I E f' st1 vis1 c' st2 vis2 post2) : TextRun U h I E f st vis c st2 vis2 post2 := by
  rcases h1 with h1 | ⟨f', c', i, hp, he⟩
  · exact .inl h1
  · have := h2 f' c' i hp
    unfold TextRun at this ⊢
    rw [he]
    exact this

/-- What is known about the cache afterwards: nothing lost, nodes of `l` done, and nothing new outside what is inside them. -/
structure TextPost (h : Heap) (c : SCtx) (l : List Nat) (c' : SCtx) : Prop where
  kept : ∀ m, (c.text m).isSome → (c'.text m).isSome
  done : ∀ n ∈ l, (c'.text n).isSome
  frame : ∀ m, (∀ n ∈ l, m ≠ n ∧ ¬ Inside h n m) → c'.text m = c.text m

theorem textPost_trans {c c1 c2 : SCtx} {l m : List Nat} (h1 : TextPost h c l c1) (h2 : TextPost h c1 m c2) : TextPost h c (l ++ m) c2 where
  kept n hn := h2.kept n (h1.kept n hn)
  done n hn := by
    rcases List.mem_append.1 hn with hn | hn
    · exact h2.kept n (h1.done n hn)
    · exact h2.done n hn
  frame n hn := by
    rw [h2.frame n fun x hx => hn x (by simp [hx]), h1.frame n fun x hx => hn x (by simp [hx])]

/-- One round, after the step is paid for. -/
def textRound (U : Uni) (h : Heap) (f n : Nat) (b : Bool) (st : List (Nat × Bool)) (vis : List Nat) (c : SCtx) : Except SErr Unit × SCtx :=
  if (c.text n).isSome then textLoop U h f st vis c
  else if b then (nodeText U h n >>= fun s => setText n s >>= fun _ => textLoop U h f st (vis.filter (· ≠ n))) c
  else if vis.contains n then (setText n [] >>= fun _ => textLoop U h f st vis) c
  else textLoop U h f ((h.kids n).map (·, false) ++ ((h.obj n).content.toList.map (·, false) ++ (n, true) :: st)) (n :: vis) c

/-- One round. -/
theorem textLoop_round (f : Nat) (n : Nat) (b : Bool) (st : List (Nat × Bool)) (vis : List Nat) (c : SCtx) :
    textLoop U h (f + 1) ((n, b) :: st) vis c =
      if c.steps = 0 then (.error .steps, c) else textRound U h f n b st vis { c with steps := c.steps - 1, work := c.work + 1 } := by
  rw [textLoop]
  by_cases h0 : c.steps = 0
  · rw [if_pos h0]; simp [bind_run, tick, h0]
  · rw [if_neg h0]
    unfold textRound
    simp only [bind_run, tick, h0, if_false, work1, SM.get]
    by_cases h1 : (c.text n).isSome = true
    · rw [if_pos h1, if_pos h1]
    · rw [if_neg h1, if_neg h1]
      cases b
      · by_cases h2 : vis.contains n = true
        · simp only [h2, Bool.false_eq_true, if_false, if_true]; rfl
        · simp only [h2, Bool.false_eq_true, if_false]
      · simp only [if_true]; rfl

theorem stripP_nil (p : Char → Bool) : stripP p [] = [] := rfl

theorem texts_eq (c : SCtx) (ht : ∀ n s, c.text n = some s → TextIs U h n s) : ∀ (l : List Nat) (ts : List Tree), ReadsL h l ts →
    (∀ n ∈ l, (c.text n).isSome) → (l.map fun x => (c.text x).getD []).filter (· ≠ []) = treeTexts U ts := by
  intro l
  induction l with
  | nil => intro ts hr _; cases hr; rfl
  | cons n l ih =>
    intro ts hr hd
    cases hr with
    | cons h1 h2 =>
      rename_i t ts
      have e : (c.text n).getD [] = treeText U t := by
        obtain ⟨s, hs⟩ := Option.isSome_iff_exists.1 (hd n (by simp))
        rw [hs]
        exact textIs_unique (ht n s hs) h1
      rw [List.map_cons, List.filter_cons, e, ih ts h2 fun m hm => hd m (by simp [hm]), treeTexts]
      by_cases h0 : treeText U t = []
      · simp [h0]
      · simp [h0]

theorem nodeText_ok (he : Budget E) (n : Nat) (l : Label) (cs ct : List Tree) (hr : Reads h n (.mk l cs ct)) (c : SCtx) (i : SelInv U h S D sat c)
    (hd : ∀ m ∈ h.kids n ++ (h.obj n).content.toList, (c.text m).isSome) :
    (∃ e, (nodeText U h n c).1 = .error e ∧ E e ∧ SelInv U h S D sat (nodeText U h n c).2) ∨
      ∃ b, nodeText U h n c = (.ok (treeText U (.mk l cs ct)), { c with bytes := b }) := by
  cases hr with
  | mk h1 h2 =>
    unfold nodeText treeText
    simp only [labelOf]
    by_cases hn : (h.obj n).name = c%"#text"
    · simp only [hn, if_true]
      rcases hdt : (h.obj n).data with _ | (_ | ⟨x, xs⟩)
      · exact .inr ⟨c.bytes, rfl⟩
      · exact .inr ⟨c.bytes, rfl⟩
      · dsimp only
        by_cases hb : c.bytes < (x :: xs).length
        · refine .inl ⟨.bytes, ?_⟩
          rw [bind_run, tickBytes, if_pos hb]
          exact ⟨rfl, he.bytes, i⟩
        · refine .inr ⟨c.bytes - (x :: xs).length, ?_⟩
          rw [bind_run, tickBytes, if_neg hb]
          rfl
    · simp only [hn, if_false]
      have e : ((h.kids n ++ (h.obj n).content.toList).map fun x => (c.text x).getD []).filter (· ≠ []) = treeTexts U cs ++ treeTexts U ct := by
        rw [List.map_append, List.filter_append]
        change ReadsL h (h.kids n) cs at h1
        rw [texts_eq c i.text _ cs h1 fun m hm => hd m (List.mem_append_left _ hm),
          texts_eq c i.text _ ct h2 fun m hm => hd m (List.mem_append_right _ hm)]
      rw [bind_run]
      dsimp only [SM.get]
      rw [e]
      by_cases hb : c.bytes < ((treeTexts U cs ++ treeTexts U ct).map List.length).sum
      · refine .inl ⟨.bytes, ?_⟩
        rw [bind_run, tickBytes, if_pos hb]
        exact ⟨rfl, he.bytes, i⟩
      · refine .inr ⟨c.bytes - ((treeTexts U cs ++ treeTexts U ct).map List.length).sum, ?_⟩
        rw [bind_run, tickBytes, if_neg hb]
        rfl

theorem setText_inv {c : SCtx} (i : SelInv U h S D sat c) {n : Nat} {s : Str} (hs : TextIs U h n s) :
    SelInv U h S D sat { c with text := fput c.text n (some s) } := by
  refine ⟨i.parent, i.attrs, i.nth, ?_, i.anc, i.prev⟩
  intro m t hm
  dsimp only [fput] at hm
  by_cases hmn : m = n
  · subst hmn; rw [if_pos rfl] at hm; cases hm; exact hs
  · rw [if_neg hmn] at hm; exact i.text m t hm

/-- A whole subtree. -/
def TextTree (U : Uni) (h : Heap) (S : Compound → Prop) (D : Nat) (sat : Compound → Nat → Prop) (E : SErr → Prop) (t : Tree) : Prop :=
  ∀ n, Reads h n t → ∀ f st vis c, SelInv U h S D sat c → (∀ v ∈ vis, Inside h v n) →
    TextRun U h (SelInv U h S D sat) E f ((n, false) :: st) vis c st vis (TextPost h c [n])

theorem text_list (ts : List Tree) (hts : ∀ t ∈ ts, TextTree U h S D sat E t) : ∀ l, ReadsL h l ts → ∀ f st vis c, SelInv U h S D sat c →
    (∀ v ∈ vis, ∀ n ∈ l, Inside h v n) → TextRun U h (SelInv U h S D sat) E f (l.map (·, false) ++ st) vis c st vis (TextPost h c l) := by
  induction ts with
  | nil =>
    intro l hr f st vis c i _
    cases hr
    exact .inr ⟨f, c, i, ⟨fun _ => id, by simp, fun _ _ => rfl⟩, rfl⟩
  | cons t ts ih =>
    intro l hr f st vis c i hv
    cases hr with
    | cons h1 h2 =>
      rename_i n l
      refine TextRun.trans (hts t (by simp) n h1 f (l.map (·, false) ++ st) vis c i fun v hm => hv v hm n (by simp)) ?_
      intro f' c' i' hp
      rcases ih (fun t' ht' => hts t' (by simp [ht'])) l h2 f' st vis c' i' fun v hm m hm' => hv v hm m (by simp [hm']) with h3 | ⟨f2, c2, i2, hp2, he2⟩
      · exact .inl h3
      · exact .inr ⟨f2, c2, i2, textPost_trans hp hp2, he2⟩

theorem text_node (H : SelHeap h) (he : Budget E) (l : Label) (cs ct : List Tree) (hts : ∀ t ∈ cs ++ ct, TextTree U h S D sat E t) :
    TextTree U h S D sat E (.mk l cs ct) := by
  intro n hr f st vis c i hv
  cases f with
  | zero => exact .inl ⟨i, .steps, rfl, he.steps⟩
  | succ f =>
    unfold TextRun
    rw [textLoop_round]
    by_cases h0 : c.steps = 0
    · rw [if_pos h0]; exact .inl ⟨i, .steps, rfl, he.steps⟩
    · rw [if_neg h0]
      have i1 := selInv_steps c i h0
      generalize hc1 : ({ c with steps := c.steps - 1, work := c.work + 1 } : SCtx) = c1 at i1 ⊢
      unfold textRound
      have ht1 : c1.text = c.text := by rw [← hc1]
      by_cases hd : (c1.text n).isSome = true
      · rw [if_pos hd]
        exact .inr ⟨f, c1, i1, ⟨fun m hm => by rw [ht1]; exact hm, by simpa using hd, fun m _ => by rw [ht1]⟩, rfl⟩
      · have hnv : vis.contains n = false := by
          rw [← Bool.not_eq_true, List.contains_iff_mem]
          intro hm
          exact H.acyclic n (hv n hm)
        rw [if_neg hd]
        simp only [Bool.false_eq_true, if_false, hnv]
        have hr' := hr
        cases hr' with
        | mk hk hct =>
          have kidIn : ∀ m ∈ h.kids n, Inside h n m := by
            intro m hm
            obtain ⟨l, hl, hm⟩ := some_kids hm
            exact .child hl hm
          have conIn : ∀ m ∈ (h.obj n).content.toList, Inside h n m := by
            intro m hm
            rw [Option.mem_toList] at hm
            exact .content hm
          have up : ∀ v ∈ n :: vis, ∀ m, Inside h n m → Inside h v m := by
            intro v hm m hi
            rcases List.mem_cons.1 hm with rfl | hm
            · exact hi
            · exact .trans (hv v hm) hi
          have run : TextRun U h (SelInv U h S D sat) E f ((h.kids n).map (·, false) ++ ((h.obj n).content.toList.map (·, false) ++ (n, true) :: st)) (n :: vis) c1
              st vis (TextPost h c [n]) := by
            refine TextRun.trans (text_list cs (fun t ht => hts t (by simp [ht])) _ hk f _ (n :: vis) c1 i1 fun v hm m hm' => up v hm m (kidIn m hm')) ?_
            intro f2 c2 i2 hp2
            refine TextRun.trans (text_list ct (fun t ht => hts t (by simp [ht])) _ hct f2 _ (n :: vis) c2 i2 fun v hm m hm' => up v hm m (conIn m hm')) ?_
            intro f3 c3 i3 hp3
            have hp := textPost_trans hp2 hp3
            cases f3 with
            | zero => exact .inl ⟨i3, .steps, rfl, he.steps⟩
            | succ f3 =>
              unfold TextRun
              rw [textLoop_round]
              by_cases h3 : c3.steps = 0
              · rw [if_pos h3]; exact .inl ⟨i3, .steps, rfl, he.steps⟩
              · rw [if_neg h3]
                have i4 := selInv_steps c3 i3 h3
                generalize hc4 : ({ c3 with steps := c3.steps - 1, work := c3.work + 1 } : SCtx) = c4 at i4 ⊢
                unfold textRound
                have ht4 : c4.text = c3.text := by rw [← hc4]
                have hself : c4.text n = c1.text n := by
                  rw [ht4]
                  refine hp.frame n ?_
                  intro x hx
                  have hin : Inside h n x := (List.mem_append.1 hx).elim (kidIn x) (conIn x)
                  exact ⟨fun e => H.acyclic n (by rw [← e] at hin; exact hin), fun hi => H.acyclic n (.trans hin hi)⟩
                have hnd : (c4.text n).isSome ≠ true := by rw [hself]; exact hd
                rw [if_neg hnd, if_pos rfl]
                have hfil : (n :: vis).filter (· ≠ n) = vis := by
                  rw [List.filter_cons_of_neg (by simp)]
                  refine filter_ne_of_not_mem fun hm => ?_
                  exact H.acyclic n (hv n hm)
                rcases nodeText_ok he n _ cs ct hr c4 i4 (fun m hm => by rw [ht4]; exact hp.done m hm) with ⟨e, h5, h6, h7⟩ | ⟨b, h5⟩
                · left
                  rw [bind_run]
                  rcases hx : nodeText U h n c4 with ⟨r, c5⟩
                  rw [hx] at h5 h7
                  dsimp only at h5 h7
                  subst h5
                  exact ⟨h7, e, rfl, h6⟩
                · right
                  have ib := selInv_bytes c4 b i4
                  refine ⟨f3, _, setText_inv ib ⟨_, hr, rfl⟩, ⟨?_, ?_, ?_⟩, ?_⟩
                  · intro m hm
                    dsimp only [fput]
                    by_cases hmn : m = n
                    · rw [if_pos hmn]; rfl
                    · rw [if_neg hmn, ht4]; exact hp.kept m (by rw [ht1]; exact hm)
                  · intro m hm
                    rw [List.mem_singleton.1 hm]
                    simp [fput]
                  · intro m hm
                    have hm := hm n (by simp)
                    dsimp only [fput]
                    rw [if_neg hm.1, ht4, hp.frame m, ht1]
                    intro x hx
                    have hin : Inside h n x := (List.mem_append.1 hx).elim (kidIn x) (conIn x)
                    exact ⟨fun e => hm.2 (by rw [e]; exact hin), fun hi => hm.2 (.trans hin hi)⟩
                  · rw [bind_run, h5]
                    dsimp only
                    rw [bind_run]
                    dsimp only [setText, SM.set]
                    rw [hfil]
          exact run

theorem text_tree (H : SelHeap h) (he : Budget E) (t : Tree) : TextTree U h S D sat E t := by
  have : ∀ k (t : Tree), sizeOf t ≤ k → TextTree U h S D sat E t := by
    intro k
    induction k with
    | zero => intro t ht; cases t; simp at ht
    | succ k ih =>
      rintro ⟨l, cs, ct⟩ ht
      refine text_node H he l cs ct ?_
      intro t hm
      refine ih t ?_
      simp only [Tree.mk.sizeOf_spec] at ht
      rcases List.mem_append.1 hm with hm | hm
      · have := List.sizeOf_lt_of_mem hm; omega
      · have := List.sizeOf_lt_of_mem hm; omega
  exact this _ t (Nat.le_refl _)

theorem textContent_ok (H : SelHeap h) (he : Budget E) (n : Nat) : Ok (SelInv U h S D sat) (textContent U h n) (fun s => TextIs U h n s) E := by
  refine Ok.step selInv_steps he.steps ?_
  refine Ok.bind (Q := fun r => ∀ d, r = some d → TextIs U h n d) (Ok.get fun c i d hd => i.text n d hd) ?_
  rintro (_ | d) hd
  · intro c i
    obtain ⟨t, ht⟩ := H.reads n
    dsimp only
    rw [bind_run]
    dsimp only [SM.get]
    rw [bind_run]
    rcases text_tree (E := E) (S := S) (D := D) (sat := sat) (U := U) H he t n ht (c.steps + 1) [] [] c i (by simp) with ⟨h1, e, h2, h3⟩ | ⟨f', c', i', hp, h2⟩
    · rcases hx : textLoop U h (c.steps + 1) [(n, false)] [] c with ⟨r, c5⟩
      rw [hx] at h1 h2
      dsimp only at h1 h2
      subst h2
      exact ⟨h1, nofun, fun e' he' => by cases he'; exact h3⟩
    · rw [h2]
      cases f' with
      | zero => exact ⟨i', nofun, fun e' he' => by cases he'; exact he.steps⟩
      | succ f' =>
        refine ⟨i', ?_, nofun⟩
        intro a ha
        have ha : Except.ok (ε := SErr) ((c'.text n).getD []) = .ok a := ha
        cases ha
        obtain ⟨s, hs⟩ := Option.isSome_iff_exists.1 (hp.done n (by simp))
        rw [hs]
        exact i'.text n s hs
  · exact Ok.pure (hd d rfl)

end JH
