import Verif.Model.Fixup
import Verif.Spec.Fixup
import Verif.Props.Escape
import Verif.Props.CharRef
/-!
# C70: preparing a document for writing it as XML or HTML
-/
namespace Xmq.Spec

/-- What a reference stands for: the content of the entity, or the character. -/
def RefMeans (content : List Byte → Option (List Byte)) (name t : List Byte) : Prop :=
  content name = some t ∨
  (∃ ds v, name = 35 :: ds ∧ Spells 10 ds v ∧ 0 < v ∧ v < 0x110000 ∧ t = (rfc3629 v).map UInt8.ofNat) ∨
  (∃ ds v, name = 35 :: 120 :: ds ∧ Spells 16 ds v ∧ 0 < v ∧ v < 0x110000 ∧ t = (rfc3629 v).map UInt8.ofNat)

/-- The same, only decimal references to ASCII characters. -/
def AsciiRefMeans (content : List Byte → Option (List Byte)) (name t : List Byte) : Prop :=
  content name = some t ∨ ∃ ds v, name = 35 :: ds ∧ Spells 10 ds v ∧ 0 < v ∧ v < 0x80 ∧ t = (rfc3629 v).map UInt8.ofNat

/-- Numbers are not names of entities. -/
def OnlyNames (content : List Byte → Option (List Byte)) : Prop := ∀ ds, content (35 :: ds) = none

end Xmq.Spec

namespace Xmq
open Spec Props

theorem cdataName_iff (name : List Byte) : isCdataName name = true ↔ CdataName name := by
  have e : name.map lowerByte = name.map fun c => if 65 ≤ c ∧ c ≤ 90 then c + 32 else c := by
    refine List.map_congr_left fun c _ => ?_
    unfold lowerByte
    by_cases h1 : (65 : Byte) ≤ c <;> by_cases h2 : c ≤ (90 : Byte) <;> simp [h1, h2]
  simp only [isCdataName, CdataName, e, Bool.or_eq_true, beq_iff_eq]

theorem nameOf_eq (n : Node) : n.nameOf = domName n := by cases n <;> rfl

theorem cdataText_ascii {content : List Byte → Option (List Byte)} (hc : OnlyNames content) {name t : List Byte} (h : AsciiRefMeans content name t) :
    cdataText content name = some t := by
  rcases h with h | ⟨ds, v, rfl, hs, h0, hv, rfl⟩
  · rw [cdataText, h]
  · rw [cdataText, hc]
    dsimp only
    have e : peek (35 :: ds : List Byte) = 35 := rfl
    rw [e, List.tail_cons, readDigits_spells hs]
    have hb : (UInt8.ofNat v == 0) = false := by
      rw [beq_eq_false_iff_ne]
      intro hz
      have := congrArg UInt8.toNat hz
      rw [UInt8.toNat_ofNat'] at this
      simp at this
      omega
    simp only [beq_self_eq_true, if_true, hb, Bool.false_eq_true, if_false]
    rw [if_pos (by omega), rfc3629, if_pos (by omega)]
    rfl

mutual
theorem fixupHtml_decoded {content : List Byte → Option (List Byte)} (hc : OnlyNames content) :
    ∀ (n : Node) (i : Bool) (m : Node), StyleDecoded (AsciiRefMeans content) i n m →
      ∃ x, fixupHtml content i n = some x ∧ fixupComment x = m ∧ AllComments (fun s => ¬ [45, 45] <:+: s) x
  | .text s, i, m, h => by
    cases h
    exact ⟨.text s, by rw [fixupHtml], by rw [fixupComment], by rw [AllComments]; trivial⟩
  | .comment s, i, m, h => by
    cases h
    exact ⟨.comment (writtenComment s), by rw [fixupHtml], by rw [fixupComment, C17_lossless], by rw [AllComments]; exact C17_no_double_dash s⟩
  | .entity name, i, m, h => by
    cases h with
    | keep => exact ⟨.entity name, by rw [fixupHtml, if_neg (by simp)], by rw [fixupComment], by rw [AllComments]; trivial⟩
    | @decode _ t hr => exact ⟨.text t, by rw [fixupHtml, if_pos rfl, cdataText_ascii hc hr], by rw [fixupComment], by rw [AllComments]; trivial⟩
  | .element name attrs kids, i, m, h => by
    cases h with
    | element hk =>
      obtain ⟨x, e, h1, h2⟩ := fixupHtmls_decoded hc kids i _ hk
      exact ⟨_, by rw [fixupHtml, e], by rw [fixupComment, h1], by rw [AllComments]; exact h2⟩
theorem fixupHtmls_decoded {content : List Byte → Option (List Byte)} (hc : OnlyNames content) :
    ∀ (ns : List Node) (i : Bool) (ms : List Node), DecodedKids (AsciiRefMeans content) i ns ms →
      ∃ x, fixupHtmls content i ns = some x ∧ fixupComments x = ms ∧ AllCommentsIn (fun s => ¬ [45, 45] <:+: s) x
  | [], i, ms, h => by
    cases h
    exact ⟨[], by rw [fixupHtmls], by rw [fixupComments], trivial⟩
  | n :: t, i, ms, h => by
    cases h with
    | plain hn h1 h2 =>
      obtain ⟨x, e1, a1, a2⟩ := fixupHtml_decoded hc n i _ h1
      obtain ⟨y, e2, b1, b2⟩ := fixupHtmls_decoded hc t i _ h2
      have hf : isCdataName n.nameOf = false := by
        cases hb : isCdataName n.nameOf with
        | false => rfl
        | true => exact absurd ((cdataName_iff _).1 (by rw [← nameOf_eq]; exact hb)) hn
      exact ⟨x :: y, by rw [fixupHtmls, hf, Bool.or_false, e1, e2], by rw [fixupComments, a1, b1], ⟨a2, b2⟩⟩
    | cdata hn h1 h2 =>
      obtain ⟨x, e1, a1, a2⟩ := fixupHtml_decoded hc n true _ h1
      obtain ⟨y, e2, b1, b2⟩ := fixupHtmls_decoded hc t i _ h2
      have ht : isCdataName n.nameOf = true := by rw [nameOf_eq]; exact (cdataName_iff _).2 hn
      exact ⟨x :: y, by rw [fixupHtmls, ht, Bool.or_true, e1, e2], by rw [fixupComments, a1, b1], ⟨a2, b2⟩⟩
end

theorem fixupBefore_decoded {content : List Byte → Option (List Byte)} (hc : OnlyNames content) {doc doc' : List Node}
    (h : DecodedDoc (AsciiRefMeans content) doc doc') :
    ∃ x, fixupBefore content doc = some x ∧ fixupComments x = doc' ∧ AllCommentsIn (fun s => ¬ [45, 45] <:+: s) x := by
  induction h with
  | nil => exact ⟨[], by rw [fixupBefore], by rw [fixupComments], trivial⟩
  | @cons n m t t' h1 _ ih =>
    obtain ⟨x, e1, a1, a2⟩ := fixupHtml_decoded hc n false m h1
    obtain ⟨y, e2, b1, b2⟩ := ih
    exact ⟨x :: y, by rw [fixupBefore, e1, e2], by rw [fixupComments, a1, b1], ⟨a2, b2⟩⟩

/-- Nothing to escape in a comment. -/
def CommentPlain (s : List Byte) : Prop := ¬ [45, 45] <:+: s ∧ ¬ [45, 0xe2, 0x90, 0x90] <:+: s

theorem copyDle_plain {s : List Byte} (h : CommentPlain s) : copyDle s = s := by
  induction s with
  | nil => rfl
  | cons c t ih =>
    have ht : CommentPlain t := ⟨fun hi => h.1 (hi.trans (List.suffix_cons c t).isInfix), fun hi => h.2 (hi.trans (List.suffix_cons c t).isInfix)⟩
    have hn : needsDle c t = false := by
      unfold needsDle
      by_cases hc : c = 45
      · subst hc
        have h1 : (peek t == 45) = false := by
          cases t with
          | nil => rfl
          | cons d u =>
            rw [beq_eq_false_iff_ne]
            intro hd
            have hd' : d = 45 := hd
            subst hd'
            exact h.1 ⟨[], u, rfl⟩
        have h2 : startsWithDle t = false := by
          cases hs : startsWithDle t with
          | false => rfl
          | true =>
            unfold startsWithDle at hs
            split at hs
            · rename_i a b c u
              simp only [Bool.and_eq_true, beq_iff_eq] at hs
              obtain ⟨⟨rfl, rfl⟩, rfl⟩ := hs
              exact absurd ⟨[], u, rfl⟩ h.2
            · cases hs
        rw [h1, h2]; rfl
      · rw [show (c == 45) = false by simpa using hc]; rfl
    rw [copyDle, hn, ih ht]
    rfl

mutual
theorem fixupHtml_same (content : List Byte → Option (List Byte)) :
    ∀ (n : Node) (i : Bool) (x : Node), AllComments CommentPlain n → fixupHtml content i n = some x →
      fixupHtml content i x = some x ∧ (x.nameOf = n.nameOf ∨ ∃ t, x = .text t)
  | .text s, i, x, _, h => by
    rw [fixupHtml] at h
    obtain rfl := Option.some.inj h
    exact ⟨by rw [fixupHtml], .inl rfl⟩
  | .comment s, i, x, hp, h => by
    rw [fixupHtml, writtenComment_eq, copyDle_plain hp] at h
    obtain rfl := Option.some.inj h
    exact ⟨by rw [fixupHtml, writtenComment_eq, copyDle_plain hp], .inl rfl⟩
  | .entity name, i, x, _, h => by
    rw [fixupHtml] at h
    cases i with
    | false =>
      rw [if_neg (by simp)] at h
      obtain rfl := Option.some.inj h
      exact ⟨by rw [fixupHtml, if_neg (by simp)], .inl rfl⟩
    | true =>
      rw [if_pos rfl] at h
      cases ht : cdataText content name with
      | none => rw [ht] at h; cases h
      | some t =>
        rw [ht] at h
        obtain rfl := Option.some.inj h
        exact ⟨by rw [fixupHtml], .inr ⟨t, rfl⟩⟩
  | .element name attrs kids, i, x, hp, h => by
    rw [fixupHtml] at h
    cases hk : fixupHtmls content i kids with
    | none => rw [hk] at h; cases h
    | some ks =>
      rw [hk] at h
      obtain rfl := Option.some.inj h
      exact ⟨by rw [fixupHtml, fixupHtmls_same content kids i ks hp hk], .inl rfl⟩
theorem fixupHtmls_same (content : List Byte → Option (List Byte)) :
    ∀ (ns : List Node) (i : Bool) (x : List Node), AllCommentsIn CommentPlain ns → fixupHtmls content i ns = some x →
      fixupHtmls content i x = some x
  | [], i, x, _, h => by
    rw [fixupHtmls] at h
    obtain rfl := Option.some.inj h
    rw [fixupHtmls]
  | n :: t, i, x, hp, h => by
    rw [fixupHtmls] at h
    cases h1 : fixupHtml content (i || isCdataName n.nameOf) n with
    | none => rw [h1] at h; cases h
    | some a =>
      cases h2 : fixupHtmls content i t with
      | none => rw [h1, h2] at h; cases h
      | some b =>
        rw [h1, h2] at h
        obtain rfl := Option.some.inj h
        obtain ⟨e1, e2⟩ := fixupHtml_same content n _ a hp.1 h1
        have e3 := fixupHtmls_same content t i b hp.2 h2
        rcases e2 with e2 | ⟨t, rfl⟩
        · rw [fixupHtmls, e2, e1, e3]
        · rw [fixupHtmls, fixupHtml, e3]
end

namespace Props

/-- The claim of C70: references inside `style` and `script` are replaced by what they stand for, comments have no `--` any more, and reading gives the
    comments back. -/
def WrittenFaithfully : Prop :=
  ∀ content, OnlyNames content → ∀ doc doc', DecodedDoc (RefMeans content) doc doc' →
    ∃ x, fixupBefore content doc = some x ∧ fixupComments x = doc' ∧ AllCommentsIn (fun s => ¬ [45, 45] <:+: s) x

/-- **C70** for documents whose references inside `style` and `script` are decimal and to ASCII characters, or to entities with a known content.  What is
    missing: the other numeric references. -/
theorem C70_written_partial (content : List Byte → Option (List Byte)) (hc : OnlyNames content) (doc doc' : List Node)
    (h : DecodedDoc (AsciiRefMeans content) doc doc') :
    ∃ x, fixupBefore content doc = some x ∧ fixupComments x = doc' ∧ AllCommentsIn (fun s => ¬ [45, 45] <:+: s) x :=
  fixupBefore_decoded hc h

/-- The references of `C70_written_partial` are some of those of the claim. -/
theorem C70_part (content : List Byte → Option (List Byte)) (name t : List Byte) (h : AsciiRefMeans content name t) : RefMeans content name t := by
  rcases h with h | ⟨ds, v, h1, h2, h3, h4, h5⟩
  · exact .inl h
  · exact .inr (.inl ⟨ds, v, h1, h2, h3, by omega, h5⟩)

/-- The document `html { style { &name; } }`. -/
def styleDoc (n : Node) : List Node := [.element b#"html" [] [.element b#"style" [] [n]]]

theorem styleDoc_decoded {ref : List Byte → List Byte → Prop} {name t : List Byte} (h : ref name t) (hn : name.map lowerByte ≠ b#"style" ∧ name.map lowerByte ≠ b#"script") :
    DecodedDoc ref (styleDoc (.entity name)) (styleDoc (.text t)) := by
  refine .cons (.element (.cdata (.inl (by rw [domName]; decide)) (.element (.plain ?_ (.decode h) .nil)) .nil)) .nil
  intro hcd
  have := (cdataName_iff _).2 hcd
  simp only [isCdataName, domName, Bool.or_eq_true, beq_iff_eq] at this
  rcases this with h | h
  · exact hn.1 h
  · exact hn.2 h

/-- False: `style { &#x41; }` is written as an empty style. -/
theorem C70_false : ¬ WrittenFaithfully := by
  intro h
  obtain ⟨x, e, h2, -⟩ := h (fun _ => none) (fun _ => rfl) _ _
    (styleDoc_decoded (ref := RefMeans fun _ => none) (name := b#"#x41") (t := b#"A")
      (.inr (.inr ⟨b#"41", 65, rfl, .snoc _ 4 _ 1 (.one _ 4 (.inl (by decide)) (by decide)) (.inl (by decide)) (by decide), by decide, by decide, by decide⟩))
      (by decide))
  have : fixupBefore (fun _ => none) (styleDoc (.entity b#"#x41")) = some (styleDoc (.text [])) := by decide +kernel
  rw [this] at e
  obtain rfl := Option.some.inj e
  revert h2
  decide +kernel

/-- False: `style { &#233; }` is written with the single byte 233, which is not UTF-8. -/
theorem C70_false_latin : ¬ WrittenFaithfully := by
  intro h
  have hs : Spells 10 b#"233" 233 :=
    .snoc b#"23" 23 51 3 (.snoc b#"2" 2 51 3 (.one 50 2 (.inl (by decide)) (by decide)) (.inl (by decide)) (by decide)) (.inl (by decide)) (by decide)
  obtain ⟨x, e, h2, -⟩ := h (fun _ => none) (fun _ => rfl) _ _
    (styleDoc_decoded (ref := RefMeans fun _ => none) (name := b#"#233") (t := [0xC3, 0xA9])
      (.inr (.inl ⟨b#"233", 233, rfl, hs,
        by decide, by decide, by decide⟩))
      (by decide))
  have : fixupBefore (fun _ => none) (styleDoc (.entity b#"#233")) = some (styleDoc (.text [0xE9])) := by decide +kernel
  rw [this] at e
  obtain rfl := Option.some.inj e
  revert h2
  decide +kernel

/-- The claim that no reference disappears. -/
def NoReferenceLost : Prop := ∀ name, fixupBefore (fun _ => none) (styleDoc (.entity name)) ≠ some (styleDoc (.text []))

/-- False: `style { &nbsp; }` is written as an empty style. -/
theorem C70_false_lost : ¬ NoReferenceLost := fun h => h b#"nbsp" (by decide +kernel)

/-- The claim that a document can be written twice with the same outcome. -/
def WriteTwice : Prop := ∀ content doc x, fixupBefore content doc = some x → fixupBefore content x = some x

/-- False: the comments are escaped in the document itself, and the second time the escapes are escaped. -/
theorem C70_twice_false : ¬ WriteTwice := by
  intro h
  have := h (fun _ => none) [.comment b#"a--b"] [.comment (b#"a-" ++ [0xe2, 0x90, 0x90] ++ b#"-b")] (by decide +kernel)
  revert this
  decide +kernel

/-- Writing twice is the same when no comment has anything to escape.  What is missing: the other documents. -/
theorem C70_twice_partial (content : List Byte → Option (List Byte)) (doc x : List Node)
    (hp : AllCommentsIn (fun s => ¬ [45, 45] <:+: s ∧ ¬ [45, 0xe2, 0x90, 0x90] <:+: s) doc) (h : fixupBefore content doc = some x) :
    fixupBefore content x = some x := by
  induction doc generalizing x with
  | nil =>
    rw [fixupBefore] at h
    obtain rfl := Option.some.inj h
    rw [fixupBefore]
  | cons n t ih =>
    rw [fixupBefore] at h
    cases h1 : fixupHtml content false n with
    | none => rw [h1] at h; cases h
    | some a =>
      cases h2 : fixupBefore content t with
      | none => rw [h1, h2] at h; cases h
      | some b =>
        rw [h1, h2] at h
        obtain rfl := Option.some.inj h
        rw [fixupBefore, (fixupHtml_same content n false a hp.1 h1).1, ih b hp.2 h2]

example : DecodedDoc (AsciiRefMeans fun n => if n = b#"lt" then some b#"<" else none)
    [.comment b#"a--b", .element b#"html" [] [.element b#"STYLE" [⟨b#"k", [.text b#"v"]⟩] [.text b#"x", .entity b#"#10", .entity b#"lt"], .entity b#"#10"]]
    [.comment b#"a--b", .element b#"html" [] [.element b#"STYLE" [⟨b#"k", [.text b#"v"]⟩] [.text b#"x", .text b#"\n", .text b#"<"], .entity b#"#10"]] := by
  have nocd : ∀ n : Node, isCdataName n.nameOf = false → ¬ CdataName (domName n) := by
    intro n h hc
    rw [nameOf_eq, (cdataName_iff _).2 hc] at h
    cases h
  refine .cons .comment (.cons (.element (.cdata (.inl (by decide)) (.element (.plain (nocd _ (by decide +kernel)) .text (.plain (nocd _ (by decide +kernel)) (.decode (.inr ?_))
    (.plain (nocd _ (by decide +kernel)) (.decode (.inl rfl)) .nil)))) (.plain (nocd _ (by decide +kernel)) .keep .nil))) .nil)
  exact ⟨b#"10", 10, rfl, .snoc _ 1 _ 0 (.one _ 1 (.inl (by decide)) (by decide)) (.inl (by decide)) (by decide), by decide, by decide, by decide⟩
example : OnlyNames fun n => if n = b#"lt" then some b#"<" else none := fun ds => if_neg (by simp)

end Props
end Xmq
