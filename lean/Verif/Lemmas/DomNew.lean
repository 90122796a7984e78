import Verif.Lemmas.DomOps
/-! New nodes: constructors and shallow clones. -/
namespace JH

/-- Classes and attribute dicts. -/
structure Shape (h : Heap) : Prop where
  cls : ∀ n, (h.obj n).children.isSome = (h.knd n).container
  att : ∀ n, (h.obj n).attrs.isSome = (h.knd n).container
  dlt : ∀ n d, (h.obj n).attrs = some d → d < h.nextDict
  own : ∀ n m d, (h.obj n).attrs = some d → (h.obj m).attrs = some d → n = m
  tplc : ∀ t, h.knd t = .template → ((h.obj t).ns = some c%"html" ↔ (h.cont t).isSome)

theorem Shape.of_skin {h h' : Heap} (s : Shape h)
    (hs : ∀ n, { h'.obj n with parent := none, children := none } = { h.obj n with parent := none, children := none })
    (hc : ∀ n, (h'.obj n).children.isSome = (h.obj n).children.isSome) (hd : h'.nextDict = h.nextDict) : Shape h' := by
  have hk : ∀ n, h'.knd n = h.knd n := fun n => (skin_knd (hs n)).1
  have ha : ∀ n, (h'.obj n).attrs = (h.obj n).attrs := fun n => (skin_knd (hs n)).2.2.1
  refine ⟨?_, ?_, ?_, ?_, ?_⟩
  · intro n; rw [hc, hk]; exact s.cls n
  · intro n; rw [ha, hk]; exact s.att n
  · intro n d h1; rw [ha] at h1; rw [hd]; exact s.dlt n d h1
  · intro n m d h1 h2; rw [ha] at h1 h2; exact s.own n m d h1 h2
  · intro t h1
    rw [hk] at h1
    rw [(skin_knd (hs t)).2.2.2.2.1, Heap.cont, (skin_knd (hs t)).2.1]
    exact s.tplc t h1

/-- Extending the heap by nodes that have nothing to do with the old ones. -/
theorem wf_ext {h h' : Heap} (w : WF h) (hle : h.next ≤ h'.next) (hold : ∀ n, n < h.next → h'.obj n = h.obj n)
    (hk : ∀ n, h.next ≤ n → h'.kids n = [])
    (hp : ∀ n, h.next ≤ n → h'.par n = none ∨ ∃ t, h.next ≤ t ∧ h'.par n = some t ∧ h'.cont t = some n ∧ h'.par t = none)
    (hc : ∀ t f, h.next ≤ t → h'.cont t = some f → h'.knd t = .template ∧ h'.knd f = .fragment)
    (hf : ∀ n, h'.next ≤ n → h'.obj n = {}) : WF h' := by
  have okids : ∀ n, n < h.next → h'.kids n = h.kids n := fun n hn => by unfold Heap.kids; rw [hold n hn]
  have opar : ∀ n, n < h.next → h'.par n = h.par n := fun n hn => by unfold Heap.par; rw [hold n hn]
  have oknd : ∀ n, n < h.next → h'.knd n = h.knd n := fun n hn => by unfold Heap.knd; rw [hold n hn]
  have ocont : ∀ n, n < h.next → h'.cont n = h.cont n := fun n hn => by unfold Heap.cont; rw [hold n hn]
  refine ⟨?_, ?_, ?_, ?_, ?_, ?_, ?_, ?_, hf⟩
  · intro p c hm
    rcases Nat.lt_or_ge p h.next with h1 | h1
    · rw [okids p h1] at hm
      have := w.back p c hm
      rw [opar c (w.lt_of_par this).1]; exact this
    · rw [hk p h1] at hm; cases hm
  · intro p
    rcases Nat.lt_or_ge p h.next with h1 | h1
    · rw [okids p h1]; exact w.once p
    · rw [hk p h1]; exact List.nodup_nil
  · intro c p hcp
    rcases Nat.lt_or_ge c h.next with h1 | h1
    · rw [opar c h1] at hcp
      have h2 := (w.lt_of_par hcp).2
      rw [okids p h2, ocont p h2]; exact w.up c p hcp
    · rcases hp c h1 with h2 | ⟨t, -, h3, h4, -⟩
      · rw [h2] at hcp; cases hcp
      · rw [h3] at hcp; injection hcp with e; subst e; exact .inr h4
  · intro n
    rcases Nat.lt_or_ge n h.next with h1 | h1
    · have hr := w.rooted n
      induction hr with
      | @root m h2 => exact .root (by rw [opar m h1]; exact h2)
      | @up m q h2 _ ih => exact .up (by rw [opar m h1]; exact h2) (ih (w.lt_of_par h2).2)
    · rcases hp n h1 with h2 | ⟨t, -, h3, -, h5⟩
      · exact .root h2
      · exact .up h3 (.root h5)
  · obtain ⟨r, hr⟩ := w.rank
    refine ⟨fun n => if n < h.next then r n else if h'.par n = none then 1 else 0, ?_⟩
    intro n p hnp
    dsimp only
    rcases Nat.lt_or_ge n h.next with h1 | h1
    · rw [opar n h1] at hnp
      rw [if_pos h1, if_pos (w.lt_of_par hnp).2]; exact hr n p hnp
    · rcases hp n h1 with h2 | ⟨t, h2, h3, -, h5⟩
      · rw [h2] at hnp; cases hnp
      · rw [h3] at hnp; injection hnp with e; subst e
        rw [if_neg (by omega), if_neg (by rw [h3]; simp), if_neg (by omega), if_pos h5]; omega
  · intro p c hm
    rcases Nat.lt_or_ge p h.next with h1 | h1
    · rw [okids p h1] at hm
      have := w.back p c hm
      rw [oknd c (w.lt_of_par this).1]; exact w.nofrag p c hm
    · rw [hk p h1] at hm; cases hm
  · intro t f htf
    rcases Nat.lt_or_ge t h.next with h1 | h1
    · rw [ocont t h1] at htf
      have h2 := w.tpl t f htf
      have h3 : f < h.next := by
        rcases Nat.lt_or_ge f h.next with h3 | h3
        · exact h3
        · have h4 := h2.2
          unfold Heap.knd at h4
          rw [w.fresh f h3] at h4; cases h4
      rw [oknd t h1, oknd f h3]; exact h2
    · exact hc t f h1 htf
  · intro n hn
    rcases Nat.lt_or_ge n h.next with h1 | h1
    · rw [oknd n h1] at hn
      rw [okids n h1]; exact w.leaf n hn
    · exact hk n h1

/-- Everything about a new node `b` made from a description. -/
structure NewNode (h h' : Heap) (b : Nat) (k : Kind) (name : Str) (ns data : Option Str) (attrs : Dict) (e s : Bool) : Prop where
  eq : b = h.next
  lt : b < h'.next
  le : h.next ≤ h'.next
  old : ∀ n, n < h.next → h'.obj n = h.obj n
  kind : (h'.obj b).kind = k
  nm : (h'.obj b).name = name
  nsp : (h'.obj b).ns = ns
  dat : (h'.obj b).data = data
  att : (h'.obj b).attrs = if k.container then some h.nextDict else none
  dic : k.container = true → h'.dict h.nextDict = attrs
  kids : (h'.obj b).children = if k.container then some [] else none
  par : (h'.obj b).parent = none
  flags : (h'.obj b).endTag = e ∧ (h'.obj b).selfClosing = s
  cont : (h'.obj b).content = if k = .template ∧ ns = some c%"html" then some (h.next + 1) else none
  frag : k = .template ∧ ns = some c%"html" → h'.next = h.next + 2 ∧
    h'.obj (h.next + 1) = { kind := .fragment, name := c%"#document-fragment", attrs := some (h.nextDict + 1), children := some [], parent := some h.next } ∧
    h'.nextDict = h.nextDict + 2 ∧ h'.dict (h.nextDict + 1) = []
  nofrag : ¬ (k = .template ∧ ns = some c%"html") → h'.next = h.next + 1 ∧ h'.nextDict = h.nextDict + if k.container then 1 else 0
  dold : ∀ d, d < h.nextDict → h'.dict d = h.dict d
  beyond : ∀ n, h'.next ≤ n → h.next ≤ n → h'.obj n = h.obj n

/-- A new template, without its contents. -/
def tplObj (h : Heap) (name : Str) (data : Option Str) : Obj :=
  { kind := .template, name := name, ns := some c%"html", data := data, attrs := some h.nextDict, children := some [] }

/-- Its contents. -/
def fragObj (h : Heap) : Obj :=
  { kind := .fragment, name := c%"#document-fragment", attrs := some (h.nextDict + 1), children := some [], parent := some h.next }

theorem create_new (h : Heap) (k : Kind) (name : Str) (ns data : Option Str) (attrs : Dict) :
    NewNode h (h.create k name ns data attrs).1 (h.create k name ns data attrs).2 k name ns data attrs false false := by
  by_cases ht : k = .template ∧ ns = some c%"html"
  · obtain ⟨rfl, rfl⟩ := ht
    have e : h.create .template name (some c%"html") data attrs =
        ((((((h.allocDict attrs).1.alloc (tplObj h name data)).1).allocDict
            []).1.alloc (fragObj h)).1.setContent h.next
              (some (h.next + 1)), h.next) := rfl
    rw [e]
    have hob : ∀ n, ((((((h.allocDict attrs).1.alloc (tplObj h name data)).1).allocDict []).1.alloc (fragObj h)).1.setContent h.next (some (h.next + 1))).obj n =
        if n = h.next then { tplObj h name data with content := some (h.next + 1) } else if n = h.next + 1 then fragObj h else h.obj n := by
      intro n
      unfold Heap.setContent
      rw [obj_mod]
      by_cases h1 : n = h.next
      · rw [if_pos h1, if_pos h1]
        subst h1
        simp [Heap.alloc, Heap.allocDict]
      · rw [if_neg h1, if_neg h1]
        by_cases h2 : n = h.next + 1
        · rw [if_pos h2]; simp [Heap.alloc, Heap.allocDict, h2]
        · rw [if_neg h2]; simp [Heap.alloc, Heap.allocDict, h1, h2]
    have hdic : ∀ n, ((((((h.allocDict attrs).1.alloc (tplObj h name data)).1).allocDict
            []).1.alloc (fragObj h)).1.setContent h.next
              (some (h.next + 1))).dict n = if n = h.nextDict + 1 then [] else if n = h.nextDict then attrs else h.dict n := fun n => rfl
    dsimp only
    refine ⟨rfl, ?_, ?_, ?_, ?_, ?_, ?_, ?_, ?_, ?_, ?_, ?_, ?_, ?_, ?_, ?_, ?_, ?_⟩
    · show h.next < h.next + 1 + 1; omega
    · show h.next ≤ h.next + 1 + 1; omega
    · intro n hn; rw [hob, if_neg (by omega), if_neg (by omega)]
    · rw [hob, if_pos rfl]; rfl
    · rw [hob, if_pos rfl]; rfl
    · rw [hob, if_pos rfl]; rfl
    · rw [hob, if_pos rfl]; rfl
    · rw [hob, if_pos rfl]; rfl
    · intro _; rw [hdic, if_neg (by omega), if_pos rfl]
    · rw [hob, if_pos rfl]; rfl
    · rw [hob, if_pos rfl]; rfl
    · rw [hob, if_pos rfl]; exact ⟨rfl, rfl⟩
    · rw [hob, if_pos rfl, if_pos ⟨rfl, rfl⟩]
    · intro _
      refine ⟨rfl, ?_, rfl, ?_⟩
      · rw [hob, if_neg (by omega), if_pos rfl]; rfl
      · rw [hdic, if_pos rfl]
    · intro hn; exact absurd ⟨rfl, rfl⟩ hn
    · intro d hd; rw [hdic, if_neg (by omega), if_neg (by omega)]
    · intro n hn _
      have hn : h.next + 1 + 1 ≤ n := hn
      rw [hob, if_neg (by omega), if_neg (by omega)]
  · unfold Heap.create
    dsimp only
    rw [if_neg ht]
    cases hk : k.container
    · simp only [Bool.false_eq_true, if_false]
      refine ⟨rfl, ?_, ?_, ?_, ?_, ?_, ?_, ?_, ?_, ?_, ?_, ?_, ?_, ?_, ?_, ?_, ?_, ?_⟩
      · show h.next < h.next + 1; omega
      · show h.next ≤ h.next + 1; omega
      · intro n hn; simp [Heap.alloc]; omega
      all_goals try (simp [Heap.alloc, ht, hk]; done)
      · intro n hn hn2
        have hn : h.next + 1 ≤ n := hn
        simp [Heap.alloc]; omega
    · simp only [if_true]
      refine ⟨rfl, ?_, ?_, ?_, ?_, ?_, ?_, ?_, ?_, ?_, ?_, ?_, ?_, ?_, ?_, ?_, ?_, ?_⟩
      · show h.next < h.next + 1; omega
      · show h.next ≤ h.next + 1; omega
      · intro n hn; exact if_neg (by show n ≠ h.next; omega)
      all_goals try (simp [Heap.alloc, Heap.allocDict, ht, hk]; done)
      · intro d hd; simp [Heap.alloc, Heap.allocDict]; omega
      · intro n hn hn2
        have hn : h.next + 1 ≤ n := hn
        exact if_neg (by show n ≠ h.next; omega)

theorem shallow_new (h : Heap) (a : Nat) (ov : Option Dict) :
    NewNode h (h.shallow a ov).1 (h.shallow a ov).2 (h.obj a).kind (h.obj a).name (h.obj a).ns (h.obj a).data (h.cloneAttrs a ov) (h.obj a).endTag (h.obj a).selfClosing := by
  have c := create_new h (h.obj a).kind (h.obj a).name (h.obj a).ns (h.obj a).data (h.cloneAttrs a ov)
  unfold Heap.shallow
  dsimp only
  generalize h.create (h.obj a).kind (h.obj a).name (h.obj a).ns (h.obj a).data (h.cloneAttrs a ov) = r at c
  obtain ⟨h1, b⟩ := r
  dsimp only at c ⊢
  have hb : (h1.mod b fun x => { x with endTag := (h.obj a).endTag, selfClosing := (h.obj a).selfClosing }).obj b =
      { h1.obj b with endTag := (h.obj a).endTag, selfClosing := (h.obj a).selfClosing } := by rw [obj_mod, if_pos rfl]
  have ho : ∀ n, n ≠ b → (h1.mod b fun x => { x with endTag := (h.obj a).endTag, selfClosing := (h.obj a).selfClosing }).obj n = h1.obj n := by
    intro n hn; rw [obj_mod, if_neg hn]
  have eb := c.eq
  refine ⟨c.eq, c.lt, c.le, ?_, ?_, ?_, ?_, ?_, ?_, c.dic, ?_, ?_, ?_, ?_, ?_, c.nofrag, c.dold, ?_⟩
  · intro n hn; rw [ho n (by omega)]; exact c.old n hn
  · rw [hb]; exact c.kind
  · rw [hb]; exact c.nm
  · rw [hb]; exact c.nsp
  · rw [hb]; exact c.dat
  · rw [hb]; exact c.att
  · rw [hb]; exact c.kids
  · rw [hb]; exact c.par
  · rw [hb]; exact ⟨rfl, rfl⟩
  · rw [hb]; exact c.cont
  · intro ht
    obtain ⟨h2, h3, h4, h5⟩ := c.frag ht
    refine ⟨h2, ?_, h4, h5⟩
    rw [ho _ (by omega)]; exact h3
  · intro n hn hn2
    rw [ho n (by rintro rfl; have := c.lt; exact absurd hn (Nat.not_le.2 this))]
    exact c.beyond n hn hn2

theorem new_cases {h h' : Heap} {b : Nat} {k : Kind} {name : Str} {ns data : Option Str} {attrs : Dict} {e s : Bool} (w : WF h)
    (c : NewNode h h' b k name ns data attrs e s) (n : Nat) (hn : h.next ≤ n) :
    n = b ∨ (n = h.next + 1 ∧ k = .template ∧ ns = some c%"html") ∨ h'.obj n = {} := by
  by_cases ht : k = .template ∧ ns = some c%"html"
  · have := (c.frag ht).1
    by_cases h1 : n = b
    · exact .inl h1
    · by_cases h2 : n = h.next + 1
      · exact .inr (.inl ⟨h2, ht⟩)
      · have := c.eq
        exact .inr (.inr (by rw [c.beyond n (by omega) hn]; exact w.fresh n hn))
  · have := (c.nofrag ht).1
    by_cases h1 : n = b
    · exact .inl h1
    · have := c.eq
      exact .inr (.inr (by rw [c.beyond n (by omega) hn]; exact w.fresh n hn))

theorem new_wf {h h' : Heap} {b : Nat} {k : Kind} {name : Str} {ns data : Option Str} {attrs : Dict} {e s : Bool} (w : WF h)
    (c : NewNode h h' b k name ns data attrs e s) : WF h' := by
  have eb := c.eq
  apply wf_ext w c.le c.old
  · intro n hn
    unfold Heap.kids
    rcases new_cases w c n hn with rfl | ⟨rfl, ht⟩ | h1
    · rw [c.kids]; split <;> rfl
    · rw [(c.frag ht).2.1]; rfl
    · rw [h1]; rfl
  · intro n hn
    rcases new_cases w c n hn with rfl | ⟨rfl, ht⟩ | h1
    · left; exact c.par
    · right
      refine ⟨b, by omega, ?_, ?_, c.par⟩
      · unfold Heap.par; rw [(c.frag ht).2.1, eb]
      · unfold Heap.cont; rw [c.cont, if_pos ht]
    · left; unfold Heap.par; rw [h1]
  · intro t f hn htf
    unfold Heap.cont at htf
    rcases new_cases w c t hn with rfl | ⟨rfl, ht⟩ | h1
    · rw [c.cont] at htf
      split at htf
      · rename_i ht
        injection htf with htf
        subst htf
        refine ⟨c.kind.trans ht.1, ?_⟩
        unfold Heap.knd; rw [(c.frag ht).2.1]
      · cases htf
    · rw [(c.frag ht).2.1] at htf; cases htf
    · rw [h1] at htf; cases htf
  · intro n hn
    have h1 : h.next ≤ n := Nat.le_trans c.le hn
    rw [c.beyond n hn h1]; exact w.fresh n h1

theorem new_shape {h h' : Heap} {b : Nat} {k : Kind} {name : Str} {ns data : Option Str} {attrs : Dict} {e s : Bool} (w : WF h) (sh : Shape h)
    (c : NewNode h h' b k name ns data attrs e s) : Shape h' := by
  have eb := c.eq
  have hnd : h.nextDict ≤ h'.nextDict := by
    by_cases ht : k = .template ∧ ns = some c%"html"
    · have := (c.frag ht).2.2.1; omega
    · have := (c.nofrag ht).2; omega
  -- the attribute dicts of the nodes of the new heap
  have hatt : ∀ n d, (h'.obj n).attrs = some d → (n < h.next ∧ (h.obj n).attrs = some d ∧ d < h.nextDict) ∨ (n = b ∧ d = h.nextDict ∧ d < h'.nextDict) ∨
      (n = h.next + 1 ∧ d = h.nextDict + 1 ∧ d < h'.nextDict) := by
    intro n d hd
    rcases Nat.lt_or_ge n h.next with h1 | h1
    · rw [c.old n h1] at hd; exact .inl ⟨h1, hd, sh.dlt n d hd⟩
    · rcases new_cases w c n h1 with rfl | ⟨rfl, ht⟩ | h2
      · rw [c.att] at hd
        split at hd
        · rename_i hk
          injection hd with hd
          refine .inr (.inl ⟨rfl, hd.symm, ?_⟩)
          by_cases ht : k = .template ∧ ns = some c%"html"
          · have := (c.frag ht).2.2.1; omega
          · have := (c.nofrag ht).2; rw [if_pos hk] at this; omega
        · cases hd
      · rw [(c.frag ht).2.1] at hd
        injection hd with hd
        have := (c.frag ht).2.2.1
        exact .inr (.inr ⟨rfl, hd.symm, by omega⟩)
      · rw [h2] at hd; cases hd
  refine ⟨?_, ?_, ?_, ?_, ?_⟩
  · intro n
    unfold Heap.knd
    rcases Nat.lt_or_ge n h.next with h1 | h1
    · rw [c.old n h1]; exact sh.cls n
    · rcases new_cases w c n h1 with rfl | ⟨rfl, ht⟩ | h2
      · rw [c.kids, c.kind]; cases k.container <;> rfl
      · rw [(c.frag ht).2.1]; rfl
      · rw [h2]; rfl
  · intro n
    unfold Heap.knd
    rcases Nat.lt_or_ge n h.next with h1 | h1
    · rw [c.old n h1]; exact sh.att n
    · rcases new_cases w c n h1 with rfl | ⟨rfl, ht⟩ | h2
      · rw [c.att, c.kind]; cases k.container <;> rfl
      · rw [(c.frag ht).2.1]; rfl
      · rw [h2]; rfl
  · intro n d hd
    rcases hatt n d hd with ⟨-, -, h1⟩ | ⟨-, -, h1⟩ | ⟨-, -, h1⟩ <;> omega
  · intro n m d hn hm
    rcases hatt n d hn with ⟨h1, h2, h3⟩ | ⟨h1, h2, h3⟩ | ⟨h1, h2, h3⟩ <;> rcases hatt m d hm with ⟨h4, h5, h6⟩ | ⟨h4, h5, h6⟩ | ⟨h4, h5, h6⟩ <;>
      first | exact sh.own n m d h2 h5 | omega
  · intro t ht
    unfold Heap.knd at ht
    unfold Heap.cont
    rcases Nat.lt_or_ge t h.next with h1 | h1
    · rw [c.old t h1] at ht ⊢; exact sh.tplc t ht
    · rcases new_cases w c t h1 with rfl | ⟨rfl, ht2⟩ | h2
      · rw [c.kind] at ht
        rw [c.nsp, c.cont]
        by_cases hns : ns = some c%"html"
        · rw [if_pos ⟨ht, hns⟩]; simp [hns]
        · rw [if_neg (fun h => hns h.2)]; simp [hns]
      · rw [(c.frag ht2).2.1] at ht; cases ht
      · rw [h2] at ht; cases ht

end JH
