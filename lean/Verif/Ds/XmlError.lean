import Mathlib.Data.List.Basic
import Mathlib.Data.List.Count
import Mathlib.Data.List.TakeDrop
import Mathlib.Data.Int.Order.Basic

/-!
# Errors: where an XML file is wrong (C62) and what an exception says (C63)

Models the error report of `Document::parseData` (`stator/xml.hpp`) and `stator::Exception`
(`stator/exception.hpp`). Pointers into the file are positions `0 .. size`; at `size` stands the NUL.
-/

namespace Stator.Ds.Err

/-- Text. -/
abbrev Str := List Char

/-- `*ptr` for a pointer into `_data`. -/
def deref (data : Str) (p : Nat) : Char := (data[p]?).getD (Char.ofNat 0)

/-- The loop that counts the line. models: xml.hpp:439-442. -/
def countLines (data : Str) : Nat → Nat → Nat → Nat
  | 0, _, line => line
  | n + 1, ptr, line => countLines data n (ptr + 1) (if deref data ptr = '\n' then line + 1 else line)

/-- The loop that goes back to the start of the line. models: xml.hpp:445-447. -/
def lineStartLoop (data : Str) : Nat → Nat
  | 0 => 0
  | s + 1 => if deref data (s + 1) = '\n' then s + 1 else lineStartLoop data s

/-- The start of the line. models: xml.hpp:445-450. -/
def lineStart (data : Str) (loc : Nat) : Nat :=
  let s := lineStartLoop data loc
  if s ≠ 0 then s + 1 else s

/-- The loop that goes forward to the end of the line; `n` is the distance to the end of the file.
models: xml.hpp:452-454. -/
def lineEndLoop (data : Str) : Nat → Nat → Nat
  | 0, e => e
  | n + 1, e => if deref data e = '\n' then e else lineEndLoop data n (e + 1)

/-- What the report says. -/
structure Report where
  line : Nat
  char : Int
  /-- the quoted text -/
  quote : Str
  /-- number of spaces before the mark under the quoted text -/
  indent : Nat
  deriving DecidableEq, Repr

/-- The report of an error at position `loc`; `none`: constructing a `std::string` from a range that ends before
it starts throws `std::length_error` instead. models: xml.hpp:436-462. -/
def report (data : Str) (loc : Nat) : Option Report :=
  let line := countLines data loc 0 1
  let start := lineStart data loc
  let stop := lineEndLoop data (data.length - loc) loc
  let startsize : Int := min ((loc : Int) - start) 40
  if startsize < 0 then none else
    let endsize : Int := min ((stop : Int) - loc) 40
    some ⟨line, (loc : Int) - start,
      ((data.drop (loc - startsize.toNat)).take startsize.toNat) ++ (data.drop loc).take endsize.toNat,
      startsize.toNat⟩

/-! ## Lemmas -/

theorem deref_eq {data : Str} {p : Nat} (h : p < data.length) : deref data p = data[p] := by
  simp [deref, h]

theorem countLines_eq (data : Str) (n p line : Nat) (h : p + n ≤ data.length) :
    countLines data n p line = line + ((data.drop p).take n).count '\n' := by
  induction n generalizing p line with
  | zero => simp [countLines]
  | succ n ih =>
    have hp : p < data.length := by omega
    rw [countLines, ih _ _ (by omega), deref_eq hp, List.drop_eq_getElem_cons hp, List.take_succ_cons,
      List.count_cons]
    split <;> simp_all <;> omega

/-- Where no newline stands between `a` and `p` the loop passes. -/
theorem lineStartLoop_pass {data : Str} {a : Nat} : ∀ {p : Nat}, a ≤ p →
    (∀ i, a < i → i ≤ p → deref data i ≠ '\n') → lineStartLoop data p = lineStartLoop data a := by
  intro p
  induction p with
  | zero => intro h _; obtain rfl : a = 0 := by omega
            rfl
  | succ p ih =>
    intro h hn
    rcases Nat.eq_or_lt_of_le h with rfl | h'
    · rfl
    · rw [lineStartLoop, if_neg (hn (p + 1) (by omega) (by omega))]
      exact ih (by omega) fun i hi hi' => hn i hi (by omega)

theorem lineEndLoop_eq (data : Str) (n e : Nat) (h : e + n = data.length) :
    ∃ m, m ≤ n ∧ lineEndLoop data n e = e + m ∧ (∀ i, i < m → deref data (e + i) ≠ '\n') ∧
      (e + m = data.length ∨ deref data (e + m) = '\n') := by
  induction n generalizing e with
  | zero => exact ⟨0, Nat.le_refl _, rfl, by intro i hi; omega, .inl (by omega)⟩
  | succ n ih =>
    unfold lineEndLoop
    split
    · rename_i hn
      exact ⟨0, by omega, rfl, by intro i hi; omega, .inr (by simpa using hn)⟩
    · rename_i hn
      obtain ⟨m, h1, h2, h3, h4⟩ := ih (e + 1) (by omega)
      refine ⟨m + 1, by omega, by rw [h2]; omega, ?_, ?_⟩
      · intro i hi
        cases i with
        | zero => exact hn
        | succ i => have := h3 i (by omega); rwa [show e + (i + 1) = e + 1 + i by omega]
      · rw [show e + (m + 1) = e + 1 + m by omega]; exact h4

/-! ## C62 -/

/-- C62: for an error at a character that is not a newline, in a line that is the first or does not start right
after a newline at the very beginning of the file, the report names the line (counted from 1), the position in
the line (from 0), quotes up to 40 characters of the line on either side, and its mark stands under the
character. `before` are the earlier lines with their newlines, `pre` and `post` the parts of the line before and
from the error on. -/
theorem C62_report (before pre post after : Str) (hb : before = [] ∨ (before.getLast? = some '\n' ∧ before ≠ ['\n']))
    (hpre : '\n' ∉ pre) (hpost : '\n' ∉ post) (hafter : after = [] ∨ after.head? = some '\n')
    (hloc : post ≠ [] ∨ after = []) :
    report (before ++ pre ++ post ++ after) (before.length + pre.length) =
      some ⟨1 + before.count '\n', pre.length, pre.drop (pre.length - 40) ++ post.take 40, min pre.length 40⟩ := by
  set data := before ++ pre ++ post ++ after with hd
  have hlen : data.length = before.length + pre.length + post.length + after.length := by simp [hd]; omega
  have hline : countLines data (before.length + pre.length) 0 1 = 1 + before.count '\n' := by
    rw [countLines_eq _ _ _ _ (by omega), List.drop_zero]
    have : data.take (before.length + pre.length) = before ++ pre := by
      rw [hd, List.append_assoc, ← List.length_append, List.take_left]
    rw [this, List.count_append, List.count_eq_zero.2 hpre]
    simp
  have hget : ∀ i, before.length ≤ i → i < before.length + pre.length + post.length → deref data i ≠ '\n' := by
    intro i h1 h2 h
    have hi : i < data.length := by omega
    rw [deref_eq hi] at h
    have : data[i]? = (pre ++ post)[i - before.length]? := by
      rw [hd, List.append_assoc, List.append_assoc, List.getElem?_append_right h1, ← List.append_assoc,
        List.getElem?_append_left (by simp; omega)]
    have hmem : '\n' ∈ pre ++ post := by
      rw [List.getElem?_eq_getElem hi, h] at this
      exact List.mem_of_getElem? this.symm
    rcases List.mem_append.1 hmem with h | h
    · exact hpre h
    · exact hpost h
  have hnl : deref data (before.length + pre.length) ≠ '\n' := by
    rcases hloc with h | h
    · exact hget _ (by omega) (by have := List.length_pos_iff.2 h; omega)
    · by_cases hp : post = []
      · subst hp; subst h
        have : data.length ≤ before.length + pre.length := by simp [hlen]
        simp [deref, List.getElem?_eq_none this]
      · exact hget _ (by omega) (by have := List.length_pos_iff.2 hp; omega)
  have hall : ∀ i, before.length ≤ i → i ≤ before.length + pre.length → deref data i ≠ '\n' := by
    intro i h1 h2
    rcases Nat.eq_or_lt_of_le h2 with rfl | h2
    · exact hnl
    · exact hget i h1 (by omega)
  have hstart : lineStart data (before.length + pre.length) = before.length := by
    unfold lineStart
    rcases hb with rfl | ⟨hb, hb1⟩
    · have : lineStartLoop data (([] : Str).length + pre.length) = 0 := by
        rw [lineStartLoop_pass (a := 0) (by omega) (fun i _ h2 => hall i (by simp) h2)]
        rfl
      simp only [this]
      simp
    · obtain ⟨b0, rfl⟩ : ∃ b0, before = b0 ++ ['\n'] := by
        rw [List.getLast?_eq_some_iff] at hb; exact hb
      have hb0 : b0 ≠ [] := fun h => hb1 (by simp [h])
      have hl : (b0 ++ ['\n']).length = b0.length + 1 := by simp
      have hpass : lineStartLoop data ((b0 ++ ['\n']).length + pre.length) = lineStartLoop data b0.length :=
        lineStartLoop_pass (by omega) fun i h1 h2 => hall i (by omega) h2
      have hat : deref data b0.length = '\n' := by
        have : data[b0.length]? = some '\n' := by
          rw [hd]; simp [List.getElem?_append]
        simp [deref, this]
      obtain ⟨m, hm⟩ : ∃ m, b0.length = m + 1 := ⟨b0.length - 1, by have := List.length_pos_iff.2 hb0; omega⟩
      have hloop : lineStartLoop data b0.length = b0.length := by
        rw [hm] at hat ⊢
        rw [lineStartLoop, if_pos hat]
      simp only [hpass, hloop]
      rw [if_pos (by omega)]; omega
  have hend : lineEndLoop data (data.length - (before.length + pre.length)) (before.length + pre.length)
      = before.length + pre.length + post.length := by
    obtain ⟨m, h1, h2, h3, h4⟩ := lineEndLoop_eq data (data.length - (before.length + pre.length))
      (before.length + pre.length) (by omega)
    rw [h2]
    have hm : m = post.length := by
      rcases Nat.lt_trichotomy m post.length with h | h | h
      · exfalso
        rcases h4 with h4 | h4
        · omega
        · exact hget _ (by omega) (by omega) h4
      · exact h
      · exfalso
        have ha : after ≠ [] := by rintro rfl; simp at hlen; omega
        have hh : after.head? = some '\n' := hafter.resolve_left ha
        refine h3 post.length h ?_
        have : data[before.length + pre.length + post.length]? = some '\n' := by
          rw [hd, List.getElem?_append_right (by simp; omega)]
          simp [← List.head?_eq_getElem?]
          rw [show before.length + pre.length + post.length - (before.length + (pre.length + post.length)) = 0 by omega,
            ← List.head?_eq_getElem?, hh]
        simp [deref, this]
    rw [hm]
  unfold report
  simp only [hline, hstart, hend]
  have hs : ((before.length + pre.length : ℕ) : Int) - before.length = pre.length := by push_cast; omega
  have he : ((before.length + pre.length + post.length : ℕ) : Int) - ((before.length + pre.length : ℕ) : Int)
      = post.length := by push_cast; omega
  rw [hs, he, if_neg (by omega)]
  have hs' : (min (pre.length : Int) 40).toNat = min pre.length 40 := by omega
  have he' : (min (post.length : Int) 40).toNat = min post.length 40 := by omega
  rw [hs', he']
  congr 2
  have q1 : (data.drop (before.length + pre.length - min pre.length 40)).take (min pre.length 40)
      = pre.drop (pre.length - 40) := by
    have e1 : before.length + pre.length - min pre.length 40 = before.length + (pre.length - 40) := by omega
    rw [e1, ← List.drop_drop, hd, List.append_assoc, List.append_assoc, List.drop_left,
      List.drop_append_of_le_length (by omega)]
    rw [List.take_append_of_le_length (by simp; omega), List.take_of_length_le (by simp; omega)]
  have q2 : (data.drop (before.length + pre.length)).take (min post.length 40) = post.take 40 := by
    rw [hd, List.append_assoc, ← List.length_append, List.drop_left]
    rw [List.take_append_of_le_length (by omega), Nat.min_comm, ← List.take_take, List.take_length]
  rw [q1, q2]

/-- C62 fails when the error is at a newline (as for `<` at the end of a line) that is not the first character
of the file: no report is made, `std::length_error` escapes. -/
theorem C62_newline_no_report (data : Str) (loc : Nat) (h0 : loc ≠ 0) (h : data[loc]? = some '\n') :
    report data loc = none := by
  obtain ⟨m, rfl⟩ : ∃ m, loc = m + 1 := ⟨loc - 1, by omega⟩
  have hd : deref data (m + 1) = '\n' := by simp [deref, h]
  have : lineStart data (m + 1) = m + 2 := by
    simp [lineStart, lineStartLoop, hd]
  unfold report
  simp only [this]
  rw [if_pos (by push_cast; omega)]

/-- C62 fails for the second line of a file whose first line is empty: the reported position is one too
large. -/
theorem C62_empty_first_line (pre post : Str) (hpre : '\n' ∉ pre) (hpost : '\n' ∉ post) :
    ∃ r, report ('\n' :: pre ++ post) (1 + pre.length) = some r ∧ r.line = 2 ∧ r.char = pre.length + 1 := by
  have hget : ∀ i, 0 < i → i ≤ 1 + pre.length → deref ('\n' :: pre ++ post) i ≠ '\n' := by
    intro i h1 h2 h
    obtain ⟨i, rfl⟩ : ∃ j, i = j + 1 := ⟨i - 1, by omega⟩
    have : ('\n' :: pre ++ post)[i + 1]? = (pre ++ post)[i]? := by simp
    simp only [deref, this] at h
    cases hx : (pre ++ post)[i]? with
    | none => rw [hx] at h; exact absurd h (by decide)
    | some c =>
      rw [hx] at h
      simp at h
      subst h
      rcases List.mem_append.1 (List.mem_of_getElem? hx) with h | h
      · exact hpre h
      · exact hpost h
  have hs : lineStart ('\n' :: pre ++ post) (1 + pre.length) = 0 := by
    unfold lineStart
    have := lineStartLoop_pass (data := '\n' :: pre ++ post) (a := 0) (p := 1 + pre.length) (by omega) hget
    simp only [this]
    rfl
  unfold report
  simp only [hs]
  rw [if_neg (by push_cast; omega)]
  refine ⟨_, rfl, ?_, by push_cast; omega⟩
  simp only
  rw [countLines_eq _ _ _ _ (by simp; omega)]
  rw [List.drop_zero, Nat.add_comm 1 pre.length, List.cons_append, List.take_succ_cons, List.take_left, List.count_cons,
    List.count_eq_zero.2 hpre]
  simp

/-- An error in the third line, and one at the end of the file. -/
example : report "<a>\n <b>\n  <c d>\n</b>".toList 15 = some ⟨3, 6, "  <c d>".toList, 6⟩ ∧
    report "<a>".toList 3 = some ⟨1, 3, "<a>".toList, 3⟩ := by decide

/-! ## C63 -/

/-- A `std::ostringstream`: its text and the put position. -/
structure OStream where
  buf : Str
  pos : Nat

/-- `os << m`: the characters are written from the put position on, over what stands there. -/
def OStream.put (o : OStream) (m : Str) : OStream :=
  ⟨o.buf.take o.pos ++ m ++ o.buf.drop (o.pos + m.length), o.pos + m.length⟩

/-- `Exception(line, file, funcname)`: writes the header. models: exception.hpp:74-79. -/
def excNew (header : Str) : OStream := (⟨[], 0⟩ : OStream).put header

/-- The copy constructor: a stream made from a string starts to write at its beginning.
models: exception.hpp:86-87. -/
def excCopy (e : OStream) : OStream := ⟨e.buf, 0⟩

/-- `stator_throw() << m1 << m2 ...`: the messages are written to the temporary, which is then copied into the
exception object. Without a message the temporary itself is the exception object.
models: exception.hpp:26-27, 93-97. -/
def excThrow (header : Str) (ms : List Str) : OStream :=
  match ms with
  | [] => excNew header
  | ms => excCopy (ms.foldl OStream.put (excNew header))

/-- `what()`. models: exception.hpp:109-112. -/
def excWhat (e : OStream) : Str := e.buf

theorem put_end (o : OStream) (h : o.pos = o.buf.length) (m : Str) :
    (o.put m).buf = o.buf ++ m ∧ (o.put m).pos = (o.put m).buf.length := by
  obtain ⟨b, p⟩ := o
  simp only at h
  subst h
  simp [OStream.put]

/-- C63: a caught exception says where it was thrown and then everything that was streamed into it at the throw,
in order; copying it (rethrowing by value, `std::current_exception` implementations that copy) keeps that. -/
theorem C63_what (header : Str) (ms : List Str) :
    excWhat (excThrow header ms) = header ++ ms.flatten ∧
    excWhat (excCopy (excThrow header ms)) = header ++ ms.flatten := by
  have h : ∀ (ms : List Str) (o : OStream), o.pos = o.buf.length →
      (ms.foldl OStream.put o).buf = o.buf ++ ms.flatten := by
    intro ms
    induction ms with
    | nil => intro o _; simp
    | cons m ms ih =>
      intro o ho
      obtain ⟨h1, h2⟩ := put_end o ho m
      rw [List.foldl_cons, ih _ h2, h1]
      simp
  have hn : (excNew header).pos = (excNew header).buf.length ∧ (excNew header).buf = header := by
    simp [excNew, OStream.put]
  have := h ms (excNew header) hn.1
  rw [hn.2] at this
  have e : excWhat (excThrow header ms) = header ++ ms.flatten := by
    cases ms with
    | nil => simpa [excThrow, excWhat] using hn.2
    | cons m ms => exact this
  exact ⟨e, e⟩

/-- C63 fails for text streamed into the exception after it was caught: it is written over the beginning of the
message. -/
theorem C63_stream_after_catch (header : Str) (ms : List Str) (m : Str) (hms : ms ≠ []) :
    excWhat ((excThrow header ms).put m) = m ++ (header ++ ms.flatten).drop m.length := by
  have := (C63_what header ms).1
  simp only [excWhat] at this ⊢
  have hp : (excThrow header ms).pos = 0 := by
    cases ms with
    | nil => exact absurd rfl hms
    | cons => rfl
  simp [OStream.put, hp, this]

example : excWhat (excThrow "at f:1 ".toList ["bad ".toList, "value".toList]) = "at f:1 bad value".toList ∧
    excWhat ((excThrow "at f:1 ".toList ["bad".toList]).put "x!".toList) = "x! f:1 bad".toList := by decide

end Stator.Ds.Err
