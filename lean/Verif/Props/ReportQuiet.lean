import Verif.Props.Report
/-! C99: without findings, nothing was removed; and every finding is right. -/
namespace JH
open Spec

/-! ### No findings, no change -/

theorem tagF_ne (U : Uni) (C : SanCfg) (name : Str) (h : decision U C name ≠ .keep) : tagFindings U C name ≠ [] := by
  unfold decision at h
  unfold tagFindings
  split
  · rename_i h1; rw [if_pos h1] at h; exact absurd rfl h
  · split <;> simp

mutual
theorem sameTree_refl (R : Str → Attrs → Attrs → Prop) (h0 : ∀ name as, R name as as) : ∀ n, SameTree R n n
  | .elem name ns as kids tpl content => by
    refine ⟨_, _, _, rfl, h0 _ _, sameTrees_refl R h0 kids, ?_⟩
    cases tpl with
    | false => rfl
    | true => exact sameTrees_refl R h0 content
  | .doc kids => ⟨_, rfl, sameTrees_refl R h0 kids⟩
  | .text _ => rfl
  | .comment _ => rfl
  | .pi _ => rfl
  | .doctype _ _ _ => rfl
theorem sameTrees_refl (R : Str → Attrs → Attrs → Prop) (h0 : ∀ name as, R name as as) : ∀ l, SameTrees R l l
  | [] => rfl
  | n :: l => ⟨_, _, rfl, sameTree_refl R h0 n, sameTrees_refl R h0 l⟩
end

mutual
theorem quiet (S : SanEnv) (C : SanCfg) (hC : C.dropComments = false ∨ C.handling ≠ .escape) (R : Str → Attrs → Attrs → Prop)
    (h0 : ∀ name as, R name as as) (h1 : ∀ name as, attrsF S C name as = [] → R name as (postAttrs S C name as)) :
    ∀ (n : Node) (fc : Bool), reps S C false fc n = [] → ∃ m, clean S C false fc n = ([m], false) ∧ SameTree R n m
  | .elem name ns as kids tpl content, fc, h => by
    have hkc : ∀ fc', repsL S C false fc' kids = [] → ∃ ms, cleanL S C false fc' kids = (ms, false) ∧ SameTrees R kids ms :=
      fun fc' h => quietL S C hC R h0 h1 kids fc' h
    have hcc : ∀ fc', (if tpl then repsL S C false fc' content else []) = [] →
        if tpl then SameTrees R content (if tpl then (cleanL S C false fc' content).1 else content) else (if tpl then (cleanL S C false fc' content).1 else content) = content := by
      intro fc' h
      cases tpl with
      | false => rfl
      | true =>
        obtain ⟨ms, e, hs⟩ := quietL S C hC R h0 h1 content fc' h
        simp only [if_true, e]
        exact hs
    have hcom : commentF C = [] → C.dropComments = true → False := by
      unfold commentF
      intro h hd
      rcases hC with hc | hc
      · rw [hc] at hd; simp at hd
      · rw [if_neg hc] at h; simp at h
    simp only [reps] at h
    simp only [clean]
    split at h
    · rename_i hs
      rw [if_pos hs]
      split at h
      · rename_i h2; exact (hcom h h2.1).elim
      · rename_i h2
        rw [if_neg h2]
        split at h
        · simp at h
        · rename_i h3
          rw [if_neg h3]
          split at h
          · rename_i h4
            rw [if_pos h4]
            split at h
            · rename_i h5
              rw [if_pos h5]
              exact ⟨_, rfl, sameTree_refl R h0 _⟩
            · rename_i h5
              rw [if_neg h5]
              obtain ⟨ms, e, hs⟩ := hkc _ h
              refine ⟨_, rfl, _, _, _, rfl, h0 _ _, by rw [e]; exact hs, ?_⟩
              cases tpl with
              | false => rfl
              | true => exact sameTrees_refl R h0 content
          · rename_i h4
            rw [if_neg h4]
            obtain ⟨hk, hc⟩ := List.append_eq_nil_iff.1 h
            obtain ⟨ms, e, hs⟩ := hkc _ hk
            exact ⟨_, rfl, _, _, _, rfl, h0 _ _, by rw [e]; exact hs, hcc _ hc⟩
    · rename_i hs
      rw [if_neg hs]
      split at h
      · simp at h
      · rename_i h2
        rw [if_neg h2]
        cases hd : decision S.E.U C name with
        | keep =>
          rw [hd] at h
          dsimp only at h ⊢
          obtain ⟨ha, h⟩ := List.append_eq_nil_iff.1 h
          obtain ⟨hk, hc⟩ := List.append_eq_nil_iff.1 h
          obtain ⟨ms, e, hs⟩ := hkc _ hk
          exact ⟨_, rfl, _, _, _, rfl, h1 _ _ ha, by rw [e]; exact hs, hcc _ hc⟩
        | drop => rw [hd] at h; exact absurd h (tagF_ne _ _ _ (by rw [hd]; simp))
        | unwrap => rw [hd] at h; exact absurd (List.append_eq_nil_iff.1 h).1 (tagF_ne _ _ _ (by rw [hd]; simp))
        | escape => rw [hd] at h; exact absurd (List.append_eq_nil_iff.1 h).1 (tagF_ne _ _ _ (by rw [hd]; simp))
  | .doc kids, fc, h => by
    simp only [reps] at h
    obtain ⟨ms, e, hs⟩ := quietL S C hC R h0 h1 kids fc h
    refine ⟨.doc ms, ?_, ms, rfl, hs⟩
    simp only [clean, e]
  | .text d, fc, h => by
    simp only [reps, textF] at h
    refine ⟨.text d, ?_, rfl⟩
    have hd : (if C.stripInv then stripInvisible d else d) = d := by
      by_cases hi : C.stripInv = true
      · rw [if_pos hi]
        by_cases e : stripInvisible d = d
        · exact e
        · rw [if_pos ⟨hi, e⟩] at h; simp at h
      · rw [if_neg hi]
    have h2 : ¬ (C.dropComments = true ∧ isCommentName (.text d) = true) := by simp [isCommentName, nodeName]
    have h3 : ¬ (C.dropDoctype = true ∧ nodeName (.text d) = c%"!doctype") := by simp [nodeName]
    simp only [clean, cleanLeaf]
    rw [if_neg h2, if_neg h3]
    simp only [finish, hd]
  | .comment d, fc, h => by
    have hc : C.dropComments ≠ true := by
      intro hd
      simp only [reps, commentF] at h
      rw [if_pos hd] at h
      rcases hC with hc | hc
      · rw [hc] at hd; simp at hd
      · rw [if_neg hc] at h; simp at h
    refine ⟨.comment d, ?_, rfl⟩
    simp only [clean, cleanLeaf]
    rw [if_neg (fun e => hc e.1), if_neg (by simp [nodeName])]
    rfl
  | .pi d, fc, h => by
    have hc : C.dropComments ≠ true := by
      intro hd
      simp only [reps, commentF] at h
      rw [if_pos hd] at h
      rcases hC with hc | hc
      · rw [hc] at hd; simp at hd
      · rw [if_neg hc] at h; simp at h
    refine ⟨.pi d, ?_, rfl⟩
    simp only [clean, cleanLeaf]
    rw [if_neg (fun e => hc e.1), if_neg (by simp [nodeName])]
    rfl
  | .doctype a b c, fc, h => by
    have hc : C.dropDoctype ≠ true := by
      intro hd
      simp only [reps] at h
      rw [if_pos hd] at h; simp at h
    refine ⟨.doctype a b c, ?_, rfl⟩
    simp only [clean, cleanLeaf]
    rw [if_neg (by simp [isCommentName, nodeName]), if_neg (fun e => hc e.1)]
    rfl
theorem quietL (S : SanEnv) (C : SanCfg) (hC : C.dropComments = false ∨ C.handling ≠ .escape) (R : Str → Attrs → Attrs → Prop)
    (h0 : ∀ name as, R name as as) (h1 : ∀ name as, attrsF S C name as = [] → R name as (postAttrs S C name as)) :
    ∀ (l : List Node) (fc : Bool), repsL S C false fc l = [] → ∃ ms, cleanL S C false fc l = (ms, false) ∧ SameTrees R l ms
  | [], fc, _ => ⟨[], rfl, rfl⟩
  | n :: l, fc, h => by
    have hn : reps S C false fc n = [] := by
      rw [repsL, seqF] at h
      split at h
      · exact h
      · exact (List.append_eq_nil_iff.1 h).1
    obtain ⟨m, e, hs⟩ := quiet S C hC R h0 h1 n fc hn
    rw [repsL, seqF_false (by rw [e])] at h
    obtain ⟨ms, e2, hs2⟩ := quietL S C hC R h0 h1 l fc (List.append_eq_nil_iff.1 h).2
    refine ⟨m :: ms, ?_, m, ms, rfl, hs, hs2⟩
    rw [cleanL, e, e2]; rfl
end

/-! ### Raw text -/

theorem textsOf_all : ∀ (kids : List Node), (kids.filter fun k => match k with | .text _ => false | _ => true) = [] →
    (textsOf kids).map Node.text = kids
  | [], _ => rfl
  | .text d :: r, h => by
    simp only [textsOf, List.map_cons]
    rw [textsOf_all r (by simpa [List.filter_cons] using h)]
  | .elem a b c d e f :: r, h => by simp [List.filter_cons] at h
  | .doc k :: r, h => by simp [List.filter_cons] at h
  | .comment k :: r, h => by simp [List.filter_cons] at h
  | .pi k :: r, h => by simp [List.filter_cons] at h
  | .doctype a b c :: r, h => by simp [List.filter_cons] at h

theorem hardenKids_quiet (U : Uni) (name : Str) (kids : List Node) (h : hardenKidsF U name kids = []) : hardenKids U name kids = kids := by
  unfold hardenKidsF at h
  unfold hardenKids
  dsimp only at h ⊢
  split at h
  · rename_i ht
    rw [if_pos ht]
    have := textsOf_all kids (List.map_eq_nil_iff.1 h)
    rw [List.isEmpty_iff.1 ht] at this
    exact this
  · rename_i ht
    rw [if_neg ht]
    obtain ⟨h, h3⟩ := List.append_eq_nil_iff.1 h
    obtain ⟨h1, h2⟩ := List.append_eq_nil_iff.1 h
    have hk := textsOf_all kids (List.map_eq_nil_iff.1 h1)
    split at h3
    · simp at h3
    · rename_i hs
      rw [if_neg hs]
      rcases Bool.eq_false_or_eq_true (neutralize (asciiLower U) name (textsOf kids).flatten).2 with hb | hb
      · rw [if_pos hb] at h2; simp at h2
      · rw [if_neg (by rw [hb]; simp)]; exact hk

mutual
theorem harden_quiet (U : Uni) : ∀ n, hardenF U n = [] → harden U n = n
  | .elem name ns as kids tpl content, h => by
    simp only [hardenF] at h
    simp only [harden]
    split at h
    · rename_i hr; rw [if_pos hr, hardenKids_quiet U _ _ h]
    · rename_i hr
      rw [if_neg hr]
      obtain ⟨h1, h2⟩ := List.append_eq_nil_iff.1 h
      rw [hardenL_quiet U kids h2]
      cases tpl with
      | false => rfl
      | true => simp only [if_true] at h1 ⊢; rw [hardenL_quiet U content h1]
  | .doc kids, h => by simp only [hardenF] at h; simp only [harden]; rw [hardenL_quiet U kids h]
  | .text _, _ => rfl
  | .comment _, _ => rfl
  | .pi _, _ => rfl
  | .doctype _ _ _, _ => rfl
theorem hardenL_quiet (U : Uni) : ∀ l, hardenFL U l = [] → hardenL U l = l
  | [], _ => rfl
  | n :: l, h => by
    simp only [hardenFL] at h
    obtain ⟨h1, h2⟩ := List.append_eq_nil_iff.1 h
    simp only [hardenL]
    rw [harden_quiet U n h1, hardenL_quiet U l h2]
end

/-! ### Attributes -/

/-- The attributes of an element before and after sanitizing, when nothing is reported: every attribute (whose name is not blank) is still
there, up to the case of its name; and unchanged if the element's attribute names are distinct and in lower case, as the parser makes
them, and it is not a URL (a URL sink, or an attribute with a URL rule), a style, or the `rel` of a link. Only a forced `rel` is new. -/
def Spec.KeptAttrs (U : Uni) (C : SanCfg) (name : Str) (as as' : Attrs) : Prop :=
  (∀ k v, (k, v) ∈ as → stripP U.isSpace k ≠ [] → ∃ v', (k, v') ∈ as' ∨ (U.lower k, v') ∈ as') ∧
  (((as.map Prod.fst).Nodup ∧ ∀ q ∈ as, U.lower q.1 = q.1) → ∀ k v, (k, v) ∈ as → stripP U.isSpace k ≠ [] → isSinkAttr k = false →
    urlRuleFor C.url (U.lower name) k = none → k ≠ c%"style" → k ≠ c%"rel" → (k, v) ∈ as') ∧
  (∀ q ∈ as', (∃ p ∈ as, U.lower p.1 = U.lower q.1) ∨ (q.1 = c%"rel" ∧ U.lower name = c%"a" ∧ C.forceRel ≠ []))

theorem keptAttrs_refl (U : Uni) (C : SanCfg) (name : Str) (as : Attrs) : KeptAttrs U C name as as :=
  ⟨fun _ v h _ => ⟨v, .inl h⟩, fun _ _ _ h _ _ _ _ _ => h, fun q hq => .inl ⟨q, hq, rfl⟩⟩

theorem keptAttrs_post (S : SanEnv) (C : SanCfg) (hN : C.Normal S.E.U) (name : Str) (as : Attrs) (h : attrsF S C name as = []) :
    KeptAttrs S.E.U C name as (postAttrs S C name as) := by
  refine ⟨?_, ?_, (post_keys S C name as).1⟩
  · intro k v hk hb
    rcases attrs_kept_or_reported S C name as k v hk hb with ⟨f, hf, -⟩ | ⟨v', hv'⟩ | ⟨v', hv'⟩
    · rw [h] at hf; simp at hf
    · exact ⟨v', .inl hv'⟩
    · exact ⟨v', .inr hv'⟩
  · rintro ⟨hn, hl⟩ k v hk hb hs hr hst hre
    obtain ⟨h1, h2⟩ := List.append_eq_nil_iff.1 h
    have hkeys : ∀ q ∈ (if C.stripInv then stripAttrs as else as), ∃ p ∈ as, p.1 = q.1 := by
      intro q hq
      split at hq
      · obtain ⟨p, hp, rfl⟩ := List.mem_map.1 hq; exact ⟨p, hp, rfl⟩
      · exact ⟨q, hq, rfl⟩
    have hal : k ∈ allowedFor S.E.U (effAttrs C) name := by
      obtain ⟨h3, -⟩ := List.append_eq_nil_iff.1 h2
      obtain ⟨h3, -⟩ := List.append_eq_nil_iff.1 h3
      have hkA : ∃ v1, (k, v1) ∈ (if C.stripInv then stripAttrs as else as) := by
        split
        · exact ⟨_, List.mem_map.2 ⟨_, hk, rfl⟩⟩
        · exact ⟨_, hk⟩
      obtain ⟨v1, hkA⟩ := hkA
      generalize (if C.stripInv = true then stripAttrs as else as) = A at h3 hkA
      unfold allowFindings at h3
      dsimp only at h3
      split at h3
      · rename_i hall
        rw [List.all_eq_true] at hall
        have := hall _ hkA
        simp at this
        exact this.2
      · rw [List.flatMap_eq_nil_iff] at h3
        have := h3 _ hkA
        rw [if_neg (by simpa using hb)] at this
        split at this
        · rename_i h5; simpa using h5
        · split at this
          · rename_i h5
            rw [show S.E.U.lower k = k from hl _ hk] at h5
            simpa using h5
          · simp at this
    have hv : stripVal C v = v := by
      unfold stripVal
      split
      · rename_i hi
        rw [if_pos hi] at h1
        unfold invisibleFindings at h1
        dsimp only at h1
        split at h1
        · rename_i he
          rw [List.isEmpty_iff, List.map_eq_nil_iff, List.filter_eq_nil_iff] at he
          have := he _ hk
          simpa using this
        · simp at h1
      · rfl
    have := sanAttrs_keeps S C hN name as k v hk hn hl hb hal hs hr hst
    rw [hv] at this
    unfold postAttrs
    dsimp only
    split
    · exact this
    · apply merge_keeps _ _ _ _ _ this
      dsimp only
      rw [show S.E.U.lower k = k from hl _ hk]; exact hre

/-- C99: if sanitizing reports nothing, it changed nothing that `KeptAttrs` does not allow: the result is the source tree, with the same
nodes, names and texts, and every attribute is still there. (In `escape` mode comments are turned into text without a report, hence the
hypothesis.) -/
theorem C99_nothing_silent (S : SanEnv) (C : SanCfg) (hN : C.Normal S.E.U) (hC : C.dropComments = false ∨ C.handling ≠ .escape) (root : Node)
    (h : (sanitizeRootR S C root).2 = []) : SameTree (KeptAttrs S.E.U C) root (sanitizeRootR S C root).1 := by
  have hk : (sanitizeRootR S C root).2 = (sanitizeKidsR S C (rootKids root)).2 := by cases root <;> rfl
  rw [hk, sanitizeKidsR_snd] at h
  obtain ⟨h1, h2⟩ := List.append_eq_nil_iff.1 h
  obtain ⟨ms, e, hs⟩ := quietL S C hC (KeptAttrs S.E.U C) (keptAttrs_refl S.E.U C) (keptAttrs_post S C hN) _ _ h1
  have hout : sanitizeKids S C (rootKids root) = ms := by
    rw [sanitizeKids_clean, e]
    rw [e] at h2
    split
    · rename_i hr; rw [if_pos hr] at h2; exact hardenL_quiet _ _ h2
    · rfl
  rw [sanitizeRootR_fst]
  cases root with
  | doc kids => exact ⟨ms, by simp only [sanitizeRoot]; rw [show sanitizeKids S C kids = ms from hout], hs⟩
  | _ =>
    obtain ⟨m, ms', rfl, h3, h4⟩ := hs
    obtain rfl : ms' = [] := h4
    have hout' : sanitizeKids S C [_] = [m] := hout
    simp only [sanitizeRoot]
    rw [hout']
    exact h3

end JH
