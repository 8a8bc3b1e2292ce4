import Verif.Model.Collapse
import Verif.Props.Numbers
import Verif.Props.LineCol
/-!
# C37: collapsing text
-/
namespace Xmq.Props
open Xmq.Spec

theorem encodeUtf8_length {uc : Int} {bs : List Byte} (h : encodeUtf8 uc = some bs) : bs.length ≤ 4 ∧ (uc ≤ 127 → bs.length = 1) := by
  unfold encodeUtf8 at h
  split at h
  · cases h; simp
  · dsimp only at h
    split at h
    · cases h; simp; omega
    · split at h
      · cases h; simp; omega
      · split at h
        · cases h; simp; omega
        · cases h

theorem decodeEntityRef_short (n : List Byte) (h : n.length ≤ 1) : decodeEntityRef n = 0 := by
  unfold decodeEntityRef
  have e : ∀ s : List Byte, 2 ≤ s.length → n ≠ s := by rintro s hs rfl; omega
  rw [if_neg (e _ (by decide)), if_neg (e _ (by decide)), if_neg (e _ (by decide)), if_neg (e _ (by decide)), if_neg (e _ (by decide))]
  by_cases hp : peek n ≠ b#'#'
  · rw [if_pos hp]
  · rw [if_neg hp]
    cases n with
    | nil => simp at hp
    | cons c t =>
      have : t = [] := by cases t with
        | nil => rfl
        | cons _ _ => simp at h
      subst this
      rw [if_neg (by simp)]
      rfl

/-- Collapsing never writes more bytes than were allocated. -/
theorem C37_no_overrun (cs : List TextChild) : collapseText cs ≠ .overrun := by
  have key : ∀ cs l n e bs, measure cs = some (l, n, e) → collapseBytes cs = some bs → bs.length ≤ l := by
    intro cs
    induction cs with
    | nil => intro l n e bs h1 h2; simp [measure, collapseBytes] at h1 h2; subst h2; simp
    | cons c t ih =>
      intro l n e bs h1 h2
      cases c with
      | text s =>
        unfold measure at h1
        unfold collapseBytes at h2
        split at h1
        · rename_i a b d hm
          split at h2
          · rename_i bt hb
            cases h1; cases h2
            have := ih _ _ _ _ hm hb
            simp; omega
          · cases h2
        · cases h1
      | entity s =>
        unfold measure at h1
        unfold collapseBytes at h2
        split at h1
        · rename_i a b d hm
          split at h2
          · rename_i u bt hu hb
            cases h1; cases h2
            have := ih _ _ _ _ hm hb
            have hl := encodeUtf8_length hu
            rw [List.length_append]
            rcases Nat.lt_or_ge s.length 2 with hs | hs
            · have h0 := decodeEntityRef_short s (by omega)
              have := hl.2 (by omega)
              omega
            · omega
          · cases h2
        · cases h1
      | other => simp [measure] at h1
  unfold collapseText
  split
  · simp
  · rename_i l n e hm
    split
    · simp
    · split
      · simp
      · rename_i bs hb
        have := key cs l n e bs hm hb
        rw [if_neg (by omega)]
        simp

/-- The character a reference stands for: `&#d;` and `&#xh;` by number, and the predefined names of XML and `nbsp`. -/
inductive RefChar : List Byte → Nat → Prop
  | dec {ds v} : Digits 10 ds v → 0 < v → v < 0x110000 → RefChar (35 :: ds) v
  | hex {ds v} : Digits 16 ds v → 0 < v → v < 0x110000 → RefChar (35 :: 120 :: ds) v
  | apos : RefChar b#"apos" 39
  | gt : RefChar b#"gt" 62
  | lt : RefChar b#"lt" 60
  | quot : RefChar b#"quot" 34
  | amp : RefChar b#"amp" 38
  | nbsp : RefChar b#"nbsp" 160

/-- The bytes a sequence of texts and references stands for. -/
inductive Stands : List TextChild → List Byte → Prop
  | nil : Stands [] []
  | text {t r l} : Stands r l → Stands (.text t :: r) (t ++ l)
  | entity {n c r l} : RefChar n c → Stands r l → Stands (.entity n :: r) ((rfc3629 c).map UInt8.ofNat ++ l)

/-- The full claim: a sequence of two or more texts and references becomes the text it stands for. -/
def CollapseRight : Prop := ∀ cs l, Stands cs l → collapseText cs ≠ .unchanged → collapseText cs = .new l

/-- False: a hexadecimal reference becomes a NUL byte. -/
theorem C37_false : ¬ CollapseRight := by
  intro h
  have hd : Digits 16 b#"41" 65 := .snoc (s := b#"4") (c := 49) (v := 4) (d := 1) (.one (by unfold DigitIs; decide) (by omega)) (by unfold DigitIs; decide) (by omega)
  have := h [.entity b#"#x41"] _ (.entity (.hex hd (by omega) (by omega)) .nil) (by decide +kernel)
  revert this
  decide +kernel

/-- False: `&amp;` becomes a NUL byte. -/
theorem C37_false_amp : ¬ CollapseRight := by
  intro h
  have := h [.text b#"a", .entity b#"amp", .text b#"b"] _ (.text (.entity .amp (.text .nil))) (by decide +kernel)
  revert this
  decide +kernel

/-- References that are not hexadecimal and not `amp`. -/
def Decodable : TextChild → Prop
  | .entity n => n ≠ b#"amp" ∧ ¬ (peek n = b#'#' ∧ peek (n.drop 1) = b#'x')
  | _ => True

theorem decodeEntityRef_right {n : List Byte} {c : Nat} (h : RefChar n c) (hd : Decodable (.entity n)) : decodeEntityRef n = c := by
  cases h with
  | @dec ds _ h1 h2 h3 =>
    have hx : ¬ peek ds = b#'x' := by
      intro hx; exact hd.2 ⟨rfl, hx⟩
    unfold decodeEntityRef
    have e : ∀ (s : List Byte), peek s ≠ 35 → (35 :: ds : List Byte) ≠ s := by rintro s hs rfl; exact hs rfl
    rw [if_neg (e _ (by decide)), if_neg (e _ (by decide)), if_neg (e _ (by decide)), if_neg (e _ (by decide)), if_neg (e _ (by decide))]
    rw [if_neg (by simp)]
    rw [if_neg (by simpa using hx)]
    have := (strtol_digits (.inr rfl) h1).1
    simp only [List.drop_one, List.tail_cons]
    rw [this]
    dsimp only
    have : clamp64 (c : Int) = c := by unfold clamp64; rw [if_neg (by omega), if_neg (by omega)]
    rw [this]
    unfold toInt32
    omega
  | hex h1 h2 h3 => exact absurd ⟨rfl, rfl⟩ hd.2
  | amp => exact absurd rfl hd.1
  | apos => rfl
  | gt => rfl
  | lt => rfl
  | quot => rfl
  | nbsp => rfl

/-- For all other references a sequence becomes the text it stands for. -/
theorem C37_collapse_partial (cs : List TextChild) (l : List Byte) (h : Stands cs l) (hd : ∀ c ∈ cs, Decodable c)
    (hc : collapseText cs ≠ .unchanged) : collapseText cs = .new l := by
  have hrc : ∀ {n c}, RefChar n c → c < 0x110000 := by
    intro n c h
    cases h <;> omega
  have key : collapseBytes cs = some l := by
    clear hc
    induction h with
    | nil => rfl
    | text _ ih =>
      unfold collapseBytes
      rw [ih (fun c hc => hd c (by simp [hc]))]
    | @entity n c r l hr _ ih =>
      unfold collapseBytes
      rw [ih (fun c hc => hd c (by simp [hc])), decodeEntityRef_right hr (hd _ (by simp))]
      obtain ⟨bs, h1, h2⟩ := C01_encode_is_rfc3629 c (by have := hrc hr; omega)
      have e : (rfc3629 c).map UInt8.ofNat = bs := by
        rw [← h2, List.map_map]
        have : (UInt8.ofNat ∘ UInt8.toNat) = id := by funext x; simp
        rw [this]; simp
      rw [h1, e]
  have ho := C37_no_overrun cs
  unfold collapseText at hc ho ⊢
  cases hm : measure cs with
  | none => rw [hm] at hc; exact absurd rfl hc
  | some m =>
    obtain ⟨a, b, c⟩ := m
    rw [hm, key] at hc ho
    dsimp only at hc ho ⊢
    by_cases hn : b ≤ 1 ∧ c = 0
    · rw [if_pos hn] at hc; exact absurd rfl hc
    · rw [if_neg hn] at ho ⊢
      rw [key]
      dsimp only
      by_cases hl : l.length + 1 > a + 1
      · rw [if_pos hl] at ho; exact absurd rfl ho
      · rw [if_neg hl]

example : collapseText [.text b#"a", .entity b#"#229", .entity b#"lt", .text b#"b"] = .new (b#"a" ++ [0xc3, 0xa5] ++ b#"<b") := by decide +kernel

/-- Only a reference to a number above 0x10ffff makes the library abort. -/
theorem C37_aborts_only_for_large (cs : List TextChild) (h : collapseText cs = .aborts) :
    ∃ n, TextChild.entity n ∈ cs ∧ 0x10ffff < decodeEntityRef n := by
  have key : ∀ cs, measure cs ≠ none → collapseBytes cs = none → ∃ n, TextChild.entity n ∈ cs ∧ 0x10ffff < decodeEntityRef n := by
    intro cs
    induction cs with
    | nil => intro _ h; cases h
    | cons c t ih =>
      intro h1 h2
      cases c with
      | text s =>
        unfold measure at h1
        unfold collapseBytes at h2
        split at h1
        · rename_i hm
          split at h2
          · cases h2
          · rename_i hb
            obtain ⟨n, hn, hl⟩ := ih (by rw [hm]; simp) hb
            exact ⟨n, by simp [hn], hl⟩
        · exact absurd rfl h1
      | entity s =>
        unfold measure at h1
        unfold collapseBytes at h2
        split at h1
        · rename_i hm
          by_cases hl : 0x10ffff < decodeEntityRef s
          · exact ⟨s, by simp, hl⟩
          · have hs : ∃ u, encodeUtf8 (decodeEntityRef s) = some u := by
              unfold encodeUtf8
              split
              · exact ⟨_, rfl⟩
              · dsimp only
                split
                · exact ⟨_, rfl⟩
                · split
                  · exact ⟨_, rfl⟩
                  · split
                    · exact ⟨_, rfl⟩
                    · omega
            obtain ⟨u, hu⟩ := hs
            cases hb : collapseBytes t with
            | none =>
              obtain ⟨n, hn, hl⟩ := ih (by rw [hm]; simp) hb
              exact ⟨n, by simp [hn], hl⟩
            | some l => rw [hu, hb] at h2; cases h2
        · exact absurd rfl h1
      | other => exact absurd rfl h1
  unfold collapseText at h
  split at h
  · cases h
  · rename_i hm
    split at h
    · cases h
    · split at h
      · rename_i hb; exact key cs (by rw [hm]; simp) hb
      · split at h <;> cases h

example : collapseText [.entity b#"#1114112"] = .aborts := by decide +kernel

end Xmq.Props
