import Verif.Model.PlatformTexts
import Verif.Props.Checkpoint
import Verif.Props.KroneckerNumber
import Verif.Props.Platform

/-! # C123: the platform lines identify the build -/

set_option autoImplicit false

namespace Ieompp.App

open IO

theorem natText_inj {a b : ℕ} (h : natText a = natText b) : a = b := toDigits_inj h

theorem point_not_natText (n : ℕ) : '.' ∉ natText n := by
  unfold natText; exact KroneckerNumber.point_not_digit n

/-- A text up to the first point. -/
theorem split_point {a b r s : Text} (ha : '.' ∉ a) (hb : '.' ∉ b) (h : a ++ ['.'] ++ r = b ++ ['.'] ++ s) : a = b ∧ r = s := by
  induction a generalizing b with
  | nil =>
    cases b with
    | nil => exact ⟨rfl, by simpa using h⟩
    | cons x b =>
      simp only [List.nil_append, List.cons_append, List.cons.injEq] at h
      exact absurd (by simp [← h.1]) hb
  | cons x a ih =>
    cases b with
    | nil =>
      simp only [List.nil_append, List.cons_append, List.cons.injEq] at h
      exact absurd (by simp [h.1]) ha
    | cons y b =>
      simp only [List.cons_append, List.cons.injEq] at h
      obtain ⟨e1, e2⟩ := ih (b := b) (fun h => ha (by simp [h])) (fun h => hb (by simp [h])) h.2
      exact ⟨by rw [h.1, e1], e2⟩

/-- Three numbers with points between them. -/
theorem dotted_inj {a b c a' b' c' : ℕ}
    (h : natText a ++ ['.'] ++ natText b ++ ['.'] ++ natText c = natText a' ++ ['.'] ++ natText b' ++ ['.'] ++ natText c') : a = a' ∧ b = b' ∧ c = c' := by
  have e : ∀ x y z : Text, x ++ ['.'] ++ y ++ ['.'] ++ z = x ++ ['.'] ++ (y ++ ['.'] ++ z) := fun x y z => by simp
  rw [e, e] at h
  obtain ⟨h1, h2⟩ := split_point (point_not_natText _) (point_not_natText _) h
  obtain ⟨h3, h4⟩ := split_point (point_not_natText _) (point_not_natText _) h2
  exact ⟨natText_inj h1, natText_inj h3, natText_inj h4⟩

/-- Different versions of boost have different texts. -/
theorem boostText_inj {m m' : Machine} (h : boostText m = boostText m') : m.boost = m'.boost := by
  obtain ⟨h1, h2, h3⟩ := dotted_inj h
  omega

/-- Different compilers and different versions have different texts, as long as the major version of an Intel compiler fits into 16 bits. -/
theorem compilerText_inj {c d : Compiler} (hc : ∀ v, c = .intel v → v < 100 * 2 ^ 16) (hd : ∀ v, d = .intel v → v < 100 * 2 ^ 16)
    (h : compilerText c = compilerText d) : c = d := by
  have e : ∀ p x y z : Text, p ++ x ++ ['.'] ++ y ++ ['.'] ++ z = p ++ (x ++ ['.'] ++ y ++ ['.'] ++ z) := fun p x y z => by simp
  cases c <;> cases d <;> unfold compilerText at h <;> simp only [e] at h
  case clang.clang =>
    obtain ⟨h1, h2, h3⟩ := dotted_inj (List.append_cancel_left h)
    rw [h1, h2, h3]
  case gcc.gcc =>
    obtain ⟨h1, h2, h3⟩ := dotted_inj (List.append_cancel_left h)
    rw [h1, h2, h3]
  case intel.intel v w =>
    obtain ⟨h1, h2, -⟩ := dotted_inj (List.append_cancel_left h)
    have := hc v rfl
    have := hd w rfl
    congr 1
    omega
  case untested.untested => rfl
  all_goals
    have := congrArg (fun l => l.head?) h
    simp at this

/-- The versions of gcc and clang are printed in the usual order. -/
theorem compilerText_order : compilerText (.gcc 6 3 10) = "gcc 6.3.10".toList ∧ compilerText (.clang 3 9 1) = "clang 3.9.1".toList := by
  constructor <;> rfl

/-- The bound is needed. -/
theorem compilerText_wraps : compilerText (.intel 1700) = compilerText (.intel (1700 + 100 * 2 ^ 16)) := by
  unfold compilerText
  norm_num

theorem archText_inj {a b : Arch} (h : archText a = archText b) : a = b := by
  cases a <;> cases b <;> first | rfl | exact absurd h (by decide)

theorem osText_inj {a b : Bool} (h : osText a = osText b) : a = b := by
  cases a <;> cases b <;> first | rfl | exact absurd h (by decide)

theorem endianText_inj {a b : Endian} (h : endianText a = endianText b) : a = b := by
  cases a <;> cases b <;> first | rfl | exact absurd h (by decide)

theorem libraryText_inj {a b : Library} (h : libraryText a = libraryText b) : a = b := by
  cases a <;> cases b <;> unfold libraryText at h
  case gnu.gnu => rw [natText_inj (List.append_cancel_left h)]
  case cxx.cxx => rw [natText_inj (List.append_cancel_left h)]
  case unknown.unknown => rfl
  all_goals
    have := congrArg (fun l => l[3]?) h
    simp at this

/-- **C123.** Two programs write the same platform lines only if they were built from the same versions with the same compiler for the same platform, run with
the same maximal number of threads and by the same user on the same host (as far as the text `user@host` tells). -/
theorem platformLines_identify {b b' : Build} (hb : ∀ v, b.compiler = .intel v → v < 100 * 2 ^ 16) (hb' : ∀ v, b'.compiler = .intel v → v < 100 * 2 ^ 16)
    {user user' : Text} {host host' : Text} {threads threads' : ℕ} {lt lt' ot ot' : Text} {l : List (Text × Text)}
    (h : platformLines (b.machine (some user) host threads lt ot) = .val l) (h' : platformLines (b'.machine (some user') host' threads' lt' ot') = .val l) :
    b = b' ∧ threads = threads' ∧ user ++ ['@'] ++ host = user' ++ ['@'] ++ host' := by
  have key : ∀ (b : Build) (user host : Text) (threads : ℕ) (lt ot : Text), platformLines (b.machine (some user) host threads lt ot) = .val l →
      l.map Prod.snd = [b.version, boostText (b.machine (some user) host threads lt ot), b.blaze, archText b.arch, osText b.linux, compilerText b.compiler,
        libraryText b.library, user ++ ['@'] ++ host, endianText b.endian, natText threads] := by
    intro b user host threads lt ot h
    unfold platformLines App.user App.host Build.machine at h
    simp only [Res.bind_val] at h
    split_ifs at h
    · rw [Res.map_val] at h
      injection h with h
      rw [← h]
      rfl
    · cases h
  have e := (key _ _ _ _ _ _ h).symm.trans (key _ _ _ _ _ _ h')
  simp only [List.cons.injEq, and_true] at e
  obtain ⟨e1, e2, e3, e4, e5, e6, e7, e8, e9, e10⟩ := e
  refine ⟨?_, natText_inj e10, e8⟩
  have f2 := boostText_inj e2
  have f4 := archText_inj e4
  have f5 := osText_inj e5
  have f6 := compilerText_inj hb hb' e6
  have f7 := libraryText_inj e7
  have f9 := endianText_inj e9
  cases b
  cases b'
  simp only [Build.machine] at *
  subst e1 f2 e3 f4 f5 f6 f7 f9
  rfl

/-- The byte order that is written is that of the platform. -/
theorem endianess_text {bigByte littleByte bigWord littleWord : Bool} {e : Endian} (h : endianess bigByte littleByte bigWord littleWord = some e) :
    (endianText e = "BigEndian".toList ↔ bigByte) ∧ (endianText e = "LittleEndian".toList ↔ ¬ bigByte ∧ littleByte) ∧
      (endianText e = "BigWordSwappedEndian".toList ↔ ¬ bigByte ∧ ¬ littleByte ∧ bigWord) ∧ endianText e ≠ "UnknownEndian".toList := by
  revert h
  cases bigByte <;> cases littleByte <;> cases bigWord <;> cases littleWord <;> cases e <;> decide

/-- The fourth byte order of boost, and an unknown one, do not compile. -/
theorem endianess_littleWord_wrong (littleWord : Bool) : endianess false false false littleWord = none := rfl

/-- A build and its lines. -/
example : platformLines ((⟨"1.0".toList, 106501, "3.2".toList, .x86_64, true, .gcc 7 2 1, .gnu 20180125, .little⟩ : Build).machine (some "u".toList) "h".toList 4
      [] []) = .val [("ieompp:     ".toList, "1.0".toList), ("boost:      ".toList, "1.65.1".toList), ("blaze:      ".toList, "3.2".toList),
      ("arch:       ".toList, "x86_64".toList), ("os:         ".toList, "Linux".toList), ("compiler:   ".toList, "gcc 7.2.1".toList),
      ("std lib:    ".toList, "libstdc++20180125".toList), ("compiled by:".toList, "u@h".toList), ("endianess   ".toList, "LittleEndian".toList),
      ("max threads:".toList, "4".toList)] := by
  decide +kernel

end Ieompp.App
