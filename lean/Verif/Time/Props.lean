import Verif.Time.Model
import Mathlib.Tactic.IntervalCases
import Mathlib.Logic.Function.Iterate
import Mathlib.Tactic.Ring

/-! # C05: dates and times agree with the calendar -/

namespace Verif.Time

/-! ## Specification: the Gregorian calendar, day by day -/

structure Date where
  year : Nat
  month : Nat
  day : Nat
  deriving DecidableEq

/-- A year divisible by four is a leap year, except a century that is not divisible by 400. -/
def IsLeap (y : Nat) : Prop := y % 4 = 0 ∧ (y % 100 = 0 → y % 400 = 0)

instance (y : Nat) : Decidable (IsLeap y) := inferInstanceAs (Decidable (_ ∧ _))

def monthLength (y m : Nat) : Nat :=
  if m = 2 then (if IsLeap y then 29 else 28)
  else if m = 4 ∨ m = 6 ∨ m = 9 ∨ m = 11 then 30 else 31

/-- A date of the calendar not before 1970. -/
def Date.Valid (a : Date) : Prop :=
  1970 ≤ a.year ∧ 1 ≤ a.month ∧ a.month ≤ 12 ∧ 1 ≤ a.day ∧ a.day ≤ monthLength a.year a.month

def Date.tomorrow (a : Date) : Date :=
  if a.day < monthLength a.year a.month then ⟨a.year, a.month, a.day + 1⟩
  else if a.month < 12 then ⟨a.year, a.month + 1, 1⟩
  else ⟨a.year + 1, 1, 1⟩

/-- The date `n` days after 1970-01-01. -/
def dayN (n : Nat) : Date := Date.tomorrow^[n] ⟨1970, 1, 1⟩

/-- Order of dates. -/
def Date.Before (a b : Date) : Prop :=
  a.year < b.year ∨ a.year = b.year ∧ (a.month < b.month ∨ a.month = b.month ∧ a.day < b.day)

/-- Seconds between the start of 1970 in UTC and a time of day `n` days after 1970-01-01 in a zone ahead of UTC
by `offset` seconds. -/
def instant (n hour minute second : Nat) (offset : Int) : Int :=
  n * 86400 + hour * 3600 + minute * 60 + second - offset

/-! ## Lemmas -/

theorem leap_iff (y : Nat) : yearIsLeap y = true ↔ IsLeap y := by
  simp only [yearIsLeap, IsLeap, Bool.or_eq_true, Bool.and_eq_true, beq_iff_eq, bne_iff_ne]
  omega

/-- Days before a month. -/
def cum (l : Bool) (m : Nat) : Nat :=
  match m with
  | 1 => 0 | 2 => 31
  | 3 => if l then 60 else 59
  | 4 => if l then 91 else 90
  | 5 => if l then 121 else 120
  | 6 => if l then 152 else 151
  | 7 => if l then 182 else 181
  | 8 => if l then 213 else 212
  | 9 => if l then 244 else 243
  | 10 => if l then 274 else 273
  | 11 => if l then 305 else 304
  | 12 => if l then 335 else 334
  | _ => 0

/-- Days before a year. -/
def yearStart (y : Nat) : Nat :=
  365 * (y - 1970) + (y - 1969) / 4 + (y - 1601) / 400 - (y - 1901) / 100

def number (a : Date) : Nat := yearStart a.year + cum (decide (IsLeap a.year)) a.month + a.day - 1

theorem div_step (a b : Nat) : (a + 1) / b = a / b + (if (a + 1) % b = 0 then 1 else 0) := by
  rw [Nat.succ_div]
  simp only [Nat.dvd_iff_mod_eq_zero]

theorem yearStart_rel (k : Nat) :
    yearStart (k + 1970) = 365 * k + (k + 1) / 4 + (k + 369) / 400 - (k + 69) / 100 := by
  unfold yearStart
  rw [Nat.add_sub_cancel, show k + 1970 - 1969 = k + 1 by omega, show k + 1970 - 1601 = k + 369 by omega,
    show k + 1970 - 1901 = k + 69 by omega]

theorem yearStart_arith (k q r t : Nat) (a b c : Nat) (hle : r ≤ q)
    (e4 : b = 0 → a = 0) (e100 : c = 0 → b = 0) :
    365 * (k + 1) + (q + (if a = 0 then 1 else 0)) + (t + (if c = 0 then 1 else 0)) -
      (r + (if b = 0 then 1 else 0)) =
    365 * k + q + t - r + (if a = 0 ∧ (b = 0 → c = 0) then 366 else 365) := by
  by_cases c4 : a = 0 <;> by_cases c100 : b = 0 <;> by_cases c400 : c = 0 <;>
    simp [c4, c100, c400] at e4 e100 ⊢ <;> omega

theorem yearStart_succ (y : Nat) (h : 1970 ≤ y) :
    yearStart (y + 1) = yearStart y + (if IsLeap y then 366 else 365) := by
  obtain ⟨k, rfl⟩ : ∃ k, y = k + 1970 := ⟨y - 1970, by omega⟩
  rw [show k + 1970 + 1 = (k + 1) + 1970 by omega, yearStart_rel, yearStart_rel]
  rw [show k + 1 + 369 = (k + 369) + 1 by omega, show k + 1 + 69 = (k + 69) + 1 by omega, div_step (k + 1) 4,
    div_step (k + 369) 400, div_step (k + 69) 100]
  rw [show (k + 1 + 1) % 4 = (k + 1970) % 4 by omega, show (k + 369 + 1) % 400 = (k + 1970) % 400 by omega,
    show (k + 69 + 1) % 100 = (k + 1970) % 100 by omega]
  exact yearStart_arith k _ _ _ _ _ _ (by omega) (by omega) (by omega)

theorem tomorrow_valid {a : Date} (h : a.Valid) : a.tomorrow.Valid := by
  obtain ⟨y, m, d⟩ := a
  obtain ⟨h1, h2, h3, h4, h5⟩ := h
  simp only at h1 h2 h3 h4 h5
  unfold Date.tomorrow
  simp only
  split
  · exact ⟨h1, h2, h3, by simp, by simp only; omega⟩
  · split
    · refine ⟨h1, by simp, by simp only; omega, by simp, ?_⟩
      simp only [monthLength]
      split <;> (try split) <;> omega
    · refine ⟨by simp only; omega, by simp, by simp, by simp, ?_⟩
      simp [monthLength]

theorem number_tomorrow {a : Date} (h : a.Valid) : number a.tomorrow = number a + 1 := by
  obtain ⟨y, m, d⟩ := a
  obtain ⟨h1, h2, h3, h4, h5⟩ := h
  simp only at h1 h2 h3 h4 h5
  unfold Date.tomorrow
  simp only
  have hy := yearStart_succ y h1
  split
  · simp only [number]; omega
  · rename_i hd
    have hd' : d = monthLength y m := by omega
    subst hd'
    by_cases hl : IsLeap y
    · simp only [hl, if_true] at hy
      interval_cases m <;> simp [number, cum, monthLength, hl] <;> omega
    · simp only [hl, if_false] at hy
      interval_cases m <;> simp [number, cum, monthLength, hl] <;> omega

theorem yearStart_mono {y z : Nat} (h : 1970 ≤ y) (hz : y < z) :
    yearStart y + (if IsLeap y then 366 else 365) ≤ yearStart z := by
  obtain ⟨k, rfl⟩ : ∃ k, z = y + 1 + k := ⟨z - y - 1, by omega⟩
  clear hz
  induction k with
  | zero => rw [Nat.add_zero, yearStart_succ y h]
  | succ k ih =>
    have := yearStart_succ (y + 1 + k) (by omega)
    rw [← Nat.add_assoc, this]
    omega

theorem cum_bound (y m : Nat) (h2 : 1 ≤ m) (h3 : m ≤ 12) :
    cum (decide (IsLeap y)) m + monthLength y m ≤ (if IsLeap y then 366 else 365) := by
  by_cases hl : IsLeap y <;> interval_cases m <;> simp [cum, monthLength, hl]

theorem cum_mono (y m k : Nat) (h2 : 1 ≤ m) (h3 : m < k) (h4 : k ≤ 12) :
    cum (decide (IsLeap y)) m + monthLength y m ≤ cum (decide (IsLeap y)) k := by
  have : m ≤ 11 := by omega
  by_cases hl : IsLeap y <;> interval_cases m <;> interval_cases k <;> simp [cum, monthLength, hl]

theorem number_before {a b : Date} (ha : a.Valid) (hb : b.Valid) (h : a.Before b) : number a < number b := by
  obtain ⟨a1, a2, a3, a4, a5⟩ := ha
  obtain ⟨b1, b2, b3, b4, b5⟩ := hb
  rcases h with h | ⟨h, h' | ⟨h', h''⟩⟩
  · have := yearStart_mono a1 h
    have := cum_bound a.year a.month a2 a3
    unfold number
    omega
  · have := cum_mono a.year a.month b.month a2 h' b3
    unfold number
    rw [← h]
    omega
  · unfold number
    rw [h, h']
    omega

theorem before_trichotomy (a b : Date) : a.Before b ∨ a = b ∨ b.Before a := by
  obtain ⟨y, m, d⟩ := a
  obtain ⟨y', m', d'⟩ := b
  simp only [Date.Before, Date.mk.injEq]
  omega

theorem number_injective {a b : Date} (ha : a.Valid) (hb : b.Valid) (h : number a = number b) : a = b := by
  rcases before_trichotomy a b with h' | h' | h'
  · have := number_before ha hb h'; omega
  · exact h'
  · have := number_before hb ha h'; omega

theorem dayN_succ (n : Nat) : dayN (n + 1) = (dayN n).tomorrow := Function.iterate_succ_apply' _ _ _

theorem dayN_valid (n : Nat) : (dayN n).Valid := by
  induction n with
  | zero => exact ⟨by simp [dayN], by simp [dayN], by simp [dayN], by simp [dayN], by simp [dayN, monthLength]⟩
  | succ n ih => rw [dayN_succ]; exact tomorrow_valid ih

theorem number_dayN (n : Nat) : number (dayN n) = n := by
  induction n with
  | zero => simp [dayN, number, yearStart, cum]
  | succ n ih => rw [dayN_succ, number_tomorrow (dayN_valid n), ih]

theorem dayN_number {a : Date} (h : a.Valid) : dayN (number a) = a :=
  number_injective (dayN_valid _) h (number_dayN _)

theorem table_days (y m : Nat) (h2 : 1 ≤ m) (h3 : m ≤ 12) :
    (daysPerMonth (yearIsLeap y))[((m : Int) - 1).toNat]? = some (monthLength y m : Int) := by
  have hl := leap_iff y
  by_cases h : IsLeap y
  · rw [hl.2 h]
    interval_cases m <;> simp [daysPerMonth, monthLength, h]
  · have : yearIsLeap y = false := by
      cases h' : yearIsLeap (y : Int) with
      | true => exact absurd (hl.1 h') h
      | false => rfl
    rw [this]
    interval_cases m <;> simp [daysPerMonth, monthLength, h]

theorem table_cum (y m : Nat) (h2 : 1 ≤ m) (h3 : m ≤ 12) :
    (cumulativeDays (yearIsLeap y))[((m : Int) - 1).toNat]? = some (cum (decide (IsLeap y)) m : Int) := by
  have hl := leap_iff y
  by_cases h : IsLeap y
  · rw [hl.2 h]
    interval_cases m <;> simp [cumulativeDays, cum, h]
  · have : yearIsLeap y = false := by
      cases h' : yearIsLeap (y : Int) with
      | true => exact absurd (hl.1 h') h
      | false => rfl
    rw [this]
    interval_cases m <;> simp [cumulativeDays, cum, h]

theorem int32_ok {x : Int} (h : -2 ^ 31 ≤ x) (h' : x < 2 ^ 31) : int32 x = .ok x := if_pos ⟨h, h'⟩

theorem int32_ub {x : Int} (h : 2 ^ 31 ≤ x) : int32 x = .error .ub := if_neg (by omega)

theorem bind_ok {α β : Type} (a : α) (f : α → Res β) : ((.ok a : Res α) >>= f) = f a := rfl

theorem bind_inv {α β : Type} {x : Res α} {f : α → Res β} {b : β} (h : (x >>= f) = .ok b) :
    ∃ a, x = .ok a ∧ f a = .ok b := by
  cases x with
  | error e => simp [bind, Except.bind] at h
  | ok a => exact ⟨a, rfl, h⟩

theorem bind_error {α β : Type} (e : Err) (f : α → Res β) : ((.error e : Res α) >>= f) = .error e := rfl

/-! ## Properties -/

/-- The validator accepts exactly the dates of the calendar from 1970 on; anything else is an error. -/
theorem c05_date_valid (year month day : Int) :
    (datePartsValid year month day = .ok () ↔
      ∃ a : Date, a.Valid ∧ year = a.year ∧ month = a.month ∧ day = a.day) ∧
    (datePartsValid year month day = .ok () ∨ datePartsValid year month day = .error .format) := by
  unfold datePartsValid
  by_cases h : year ≥ 1970 ∧ month > 0 ∧ month ≤ 12 ∧ day > 0
  · rw [if_pos h]
    obtain ⟨y, rfl⟩ := Int.eq_ofNat_of_zero_le (show 0 ≤ year by omega)
    obtain ⟨m, rfl⟩ := Int.eq_ofNat_of_zero_le (show 0 ≤ month by omega)
    obtain ⟨d, rfl⟩ := Int.eq_ofNat_of_zero_le (show 0 ≤ day by omega)
    rw [table_days y m (by omega) (by omega)]
    simp only
    constructor
    · constructor
      · intro h'
        refine ⟨⟨y, m, d⟩, ⟨by simp only; omega, by simp only; omega, by simp only; omega, by simp only; omega, ?_⟩,
          rfl, rfl, rfl⟩
        simp only
        split at h'
        · omega
        · simp at h'
      · rintro ⟨⟨y', m', d'⟩, ⟨_, _, _, _, h5⟩, h6, h7, h8⟩
        simp only [Nat.cast_inj] at h5 h6 h7 h8
        subst h6 h7 h8
        rw [if_pos (by omega)]
    · split <;> simp
  · rw [if_neg h]
    constructor
    · constructor
      · intro h'; simp at h'
      · rintro ⟨⟨y', m', d'⟩, ⟨h1, h2, h3, h4, h5⟩, rfl, rfl, rfl⟩
        simp only at h1 h2 h3 h4 h
        omega
    · simp

-- a leap day is accepted in a leap year only
example : datePartsValid 2000 2 29 = .ok () ∧ datePartsValid 2100 2 29 = .error .format := by decide

/-- Every valid date is reached by counting days from 1970-01-01 and counting never leaves the calendar. -/
theorem c05_calendar (a : Date) : a.Valid ↔ ∃ n, dayN n = a :=
  ⟨fun h => ⟨number a, dayN_number h⟩, by rintro ⟨n, rfl⟩; exact dayN_valid n⟩

/-- A later date has a larger day number and conversely. -/
theorem c05_calendar_order (n k : Nat) : n < k ↔ (dayN n).Before (dayN k) := by
  constructor
  · intro h
    rcases before_trichotomy (dayN n) (dayN k) with h' | h' | h'
    · exact h'
    · have := congrArg number h'
      rw [number_dayN, number_dayN] at this
      omega
    · have := number_before (dayN_valid k) (dayN_valid n) h'
      rw [number_dayN, number_dayN] at this
      omega
  · intro h
    have := number_before (dayN_valid n) (dayN_valid k) h
    rwa [number_dayN, number_dayN] at this

example : dayN 59 = ⟨1970, 3, 1⟩ := by decide +kernel

/-- The conversion gives exactly the instant while that instant is before 2038-01-19 03:14:08 UTC. From then on
the computation overflows a 32-bit integer, which is undefined. -/
theorem c05_epoch (n hour minute second : Nat) (offset : Int) (hh : hour < 24) (hm : minute < 60)
    (hs : second < 60) (ho : -86400 ≤ offset ∧ offset ≤ 86400) :
    epochFromParts (dayN n).year (dayN n).month (dayN n).day hour minute second offset =
      if instant n hour minute second offset < 2 ^ 31 then .ok (instant n hour minute second offset)
      else .error .ub := by
  have hv := dayN_valid n
  have hn := number_dayN n
  have hd := (c05_date_valid (dayN n).year (dayN n).month (dayN n).day).1.2 ⟨dayN n, hv, rfl, rfl, rfl⟩
  generalize dayN n = a at hv hn hd
  obtain ⟨y, m, d⟩ := a
  obtain ⟨h1, h2, h3, h4, h5⟩ := hv
  simp only at h1 h2 h3 h4 h5 hd
  simp only [epochFromParts]
  have hcum := cum_bound y m h2 h3
  have htable := table_cum y m h2 h3
  simp only [number] at hn
  have hc : cum (decide (IsLeap y)) m + monthLength y m ≤ 366 := by split at hcum <;> omega
  unfold instant
  generalize cum (decide (IsLeap y)) m = c at *
  generalize hml : monthLength y m = ml at *
  have hdoy : dayOfYear (y : Int) m d = .ok ((c : Int) + d) := by
    unfold dayOfYear
    rw [hd, bind_ok, htable]
    simp only
    rw [int32_ok] <;> omega
  have htime : timePartsValid (hour : Int) minute second = .ok () := by
    unfold timePartsValid
    rw [if_pos (by omega)]
  rw [htime, bind_ok, hdoy, bind_ok]
  rw [Int.tdiv_eq_ediv_of_nonneg (by omega), Int.tdiv_eq_ediv_of_nonneg (by omega),
    Int.tdiv_eq_ediv_of_nonneg (by omega)]
  unfold yearStart at hn
  rw [int32_ok (x := -1 * offset) (by omega) (by omega), bind_ok,
    int32_ok (x := -1 * offset + second) (by omega) (by omega), bind_ok,
    int32_ok (x := (minute : Int) * 60) (by omega) (by omega), bind_ok,
    int32_ok (x := -1 * offset + second + (minute : Int) * 60) (by omega) (by omega), bind_ok,
    int32_ok (x := (hour : Int) * 3600) (by omega) (by omega), bind_ok,
    int32_ok (x := -1 * offset + second + (minute : Int) * 60 + hour * 3600) (by omega) (by omega), bind_ok,
    int32_ok (x := ((c : Int) + d - 1) * 86400) (by omega) (by omega), bind_ok,
    int32_ok (x := -1 * offset + second + (minute : Int) * 60 + hour * 3600 + ((c : Int) + d - 1) * 86400)
      (by omega) (by omega), bind_ok]
  by_cases hy : y ≤ 2037
  · rw [if_pos (by omega)]
    rw [int32_ok (x := ((y : Int) - 1900 - 70) * 31536000) (by omega) (by omega), bind_ok,
      int32_ok (x := _ + ((y : Int) - 1900 - 70) * 31536000) (by omega) (by omega), bind_ok,
      int32_ok (x := ((y : Int) - 1900 - 69) / 4 * 86400) (by omega) (by omega), bind_ok,
      int32_ok (x := _ + ((y : Int) - 1900 - 69) / 4 * 86400) (by omega) (by omega), bind_ok,
      int32_ok (x := ((y : Int) - 1900 - 1) / 100 * 86400) (by omega) (by omega), bind_ok,
      int32_ok (x := _ - ((y : Int) - 1900 - 1) / 100 * 86400) (by omega) (by omega), bind_ok,
      int32_ok (x := ((y : Int) - 1900 + 299) / 400 * 86400) (by omega) (by omega), bind_ok,
      int32_ok (by omega) (by omega)]
    congr 1
    omega
  · by_cases hy' : y = 2038
    · subst hy'
      rw [int32_ok (x := (((2038 : Nat) : Int) - 1900 - 70) * 31536000) (by omega) (by omega), bind_ok]
      split
      · rw [int32_ok (x := _ + (((2038 : Nat) : Int) - 1900 - 70) * 31536000) (by omega) (by omega), bind_ok,
          int32_ok (x := (((2038 : Nat) : Int) - 1900 - 69) / 4 * 86400) (by omega) (by omega), bind_ok,
          int32_ok (x := _ + (((2038 : Nat) : Int) - 1900 - 69) / 4 * 86400) (by omega) (by omega), bind_ok,
          int32_ok (x := (((2038 : Nat) : Int) - 1900 - 1) / 100 * 86400) (by omega) (by omega), bind_ok,
          int32_ok (x := _ - (((2038 : Nat) : Int) - 1900 - 1) / 100 * 86400) (by omega) (by omega), bind_ok,
          int32_ok (x := (((2038 : Nat) : Int) - 1900 + 299) / 400 * 86400) (by omega) (by omega), bind_ok,
          int32_ok (by omega) (by omega)]
        congr 1
        omega
      · by_cases hx : -1 * offset + second + (minute : Int) * 60 + hour * 3600 + ((c : Int) + d - 1) * 86400 +
            (((2038 : Nat) : Int) - 1900 - 70) * 31536000 < 2 ^ 31
        · rw [int32_ok (x := _ + (((2038 : Nat) : Int) - 1900 - 70) * 31536000) (by omega) (by omega), bind_ok,
            int32_ok (x := (((2038 : Nat) : Int) - 1900 - 69) / 4 * 86400) (by omega) (by omega), bind_ok,
            int32_ub (x := _ + (((2038 : Nat) : Int) - 1900 - 69) / 4 * 86400) (by omega)]
          rfl
        · rw [int32_ub (x := _ + (((2038 : Nat) : Int) - 1900 - 70) * 31536000) (by omega)]
          rfl
    · rw [int32_ub (x := ((y : Int) - 1900 - 70) * 31536000) (by omega), if_neg (by omega)]
      rfl

-- 2038-01-19 03:14:07 UTC is the last instant that is converted
example : epochFromParts 2038 1 19 3 14 7 0 = .ok 2147483647 ∧ epochFromParts 2038 1 19 3 14 8 0 = .error .ub := by
  decide

/-- Parts that are not a date and a time of day are rejected. -/
theorem c05_epoch_rejected (year month day hour minute second offset : Int)
    (h : datePartsValid year month day ≠ .ok () ∨
      ¬ (0 ≤ hour ∧ hour < 24 ∧ 0 ≤ minute ∧ minute < 60 ∧ 0 ≤ second ∧ second < 60)) :
    epochFromParts year month day hour minute second offset = .error .format := by
  unfold epochFromParts timePartsValid
  by_cases ht : hour ≥ 0 ∧ hour < 24 ∧ minute ≥ 0 ∧ minute < 60 ∧ second ≥ 0 ∧ second < 60
  · rw [if_pos ht, bind_ok]
    have h' : datePartsValid year month day = .error .format := by
      rcases (c05_date_valid year month day).2 with h' | h'
      · rcases h with h | h
        · exact absurd h' h
        · omega
      · exact h'
    unfold dayOfYear
    rw [h']
    rfl
  · rw [if_neg ht]
    rfl

example : epochFromParts 2021 2 29 0 0 0 0 = .error .format := by decide

/-! ## Text -/

/-- Two decimal digits. -/
def two (n : Nat) : List UInt8 := [UInt8.ofNat (0x30 + n / 10), UInt8.ofNat (0x30 + n % 10)]

/-- Four decimal digits. -/
def four (n : Nat) : List UInt8 := two (n / 100) ++ two (n % 100)

/-- `YYYY-MM-DD hh:mm:ss`. -/
def dateTimeText (a : Date) (hour minute second : Nat) : List UInt8 :=
  four a.year ++ [0x2d] ++ two a.month ++ [0x2d] ++ two a.day ++ [0x20] ++ two hour ++ [0x3a] ++ two minute ++
    [0x3a] ++ two second

/-- How a zone is written. -/
inductive ZoneForm where
  | hour | hourMinute | hourColonMinute

/-- `+hh`, `+hhmm` or `+hh:mm` (and the same with a minus sign). -/
def zoneText (form : ZoneForm) (west : Bool) (hour minute : Nat) : List UInt8 :=
  [if west then 0x2d else 0x2b] ++ two hour ++
    match form with
    | .hour => []
    | .hourMinute => two minute
    | .hourColonMinute => [0x3a] ++ two minute

/-- Seconds that a zone is ahead of UTC. -/
def zoneOffset (form : ZoneForm) (west : Bool) (hour minute : Nat) : Int :=
  let minute := match form with
    | .hour => 0
    | _ => minute
  if west then -(hour * 3600 + minute * 60 : Int) else hour * 3600 + minute * 60

theorem digit_facts (k : Nat) (h : k < 10) :
    isDigit (UInt8.ofNat (0x30 + k)) = true ∧ (UInt8.ofNat (0x30 + k)).toNat = 0x30 + k := by
  interval_cases k <;> decide

theorem loop_two (n : Nat) (h : n < 100) (r p : Int) (rest : List UInt8) :
    timePartLoop ((two n).reverse ++ rest) r p = timePartLoop rest (r + n * p) (p * 100) := by
  have h1 := digit_facts (n / 10) (by omega)
  have h2 := digit_facts (n % 10) (by omega)
  simp only [two, List.reverse_cons, List.reverse_nil, List.nil_append, List.cons_append, timePartLoop, h1.1, h2.1,
    if_true, h1.2, h2.2]
  congr 1
  · have : (n : Int) = 10 * (n / 10 : Nat) + (n % 10 : Nat) := by omega
    conv_rhs => rw [this]
    push_cast
    ring
  · ring

theorem timePart_two (pre post : List UInt8) (n : Nat) (h : n < 100) :
    timePart (pre ++ (two n ++ post)) pre.length 2 = .ok n := by
  unfold timePart
  have hl : (two n).length = 2 := rfl
  rw [if_neg (by simp [hl]), List.drop_left, ← hl, List.take_left]
  have := loop_two n h 0 1 []
  simp only [List.append_nil] at this
  rw [this]
  simp [timePartLoop]

theorem timePart_four (post : List UInt8) (n : Nat) (h : n < 10000) :
    timePart (four n ++ post) 0 4 = .ok n := by
  unfold timePart
  have hl : (four n).length = 4 := rfl
  rw [if_neg (by simp [hl]), List.drop_zero, ← hl, List.take_left]
  have h1 := loop_two (n % 100) (by omega) 0 1 ((two (n / 100)).reverse)
  have h2 := loop_two (n / 100) (by omega) (0 + (n % 100 : Nat) * 1) (1 * 100) []
  simp only [List.append_nil] at h2
  unfold four
  rw [List.reverse_append, h1, h2]
  simp only [timePartLoop]
  congr 1
  omega

theorem loop_sound (s : List UInt8) (r p : Int) (v : Int) (h : timePartLoop s r p = .ok v) : ∀ c ∈ s, isDigit c := by
  induction s generalizing r p with
  | nil => simp
  | cons c rest ih =>
    unfold timePartLoop at h
    split at h
    · rename_i hc
      intro x hx
      rcases List.mem_cons.1 hx with rfl | hx
      · exact hc
      · exact ih _ _ h x hx
    · simp at h

theorem digit_inv (c : UInt8) (h : isDigit c = true) : ∃ k, k < 10 ∧ c = UInt8.ofNat (0x30 + k) := by
  simp only [isDigit, Bool.and_eq_true, decide_eq_true_eq, UInt8.le_iff_toNat_le] at h
  refine ⟨c.toNat - 0x30, ?_, ?_⟩
  · have := h.2; simp at this; omega
  · have := h.1
    simp at this
    rw [show 0x30 + (c.toNat - 0x30) = c.toNat by omega, UInt8.ofNat_toNat]

theorem two_inv (c d : UInt8) (hc : isDigit c = true) (hd : isDigit d = true) : ∃ n, n < 100 ∧ [c, d] = two n := by
  obtain ⟨k, hk, rfl⟩ := digit_inv c hc
  obtain ⟨l, hl, rfl⟩ := digit_inv d hd
  exact ⟨10 * k + l, by omega, by rw [two, show (10 * k + l) / 10 = k by omega, show (10 * k + l) % 10 = l by omega]⟩

/-- The minutes of a zone. -/
def formMinute : ZoneForm → Nat → Int
  | .hour, _ => 0
  | _, m => m

theorem zone_value (form : ZoneForm) (west : Bool) (hour minute : Nat) (hh : hour < 100) (hm : minute < 100) :
    ∃ h m : Int, (zone (zoneText form west hour minute) = .ok (some (h, m)) ∧
      h = (hour : Int) * (if west then -1 else 1) ∧ m = formMinute form minute) ∧ True := by
  have hz := timePart_two []
  simp only [List.nil_append, List.length_nil] at hz
  have hflag : ((if west then (0x2d : UInt8) else 0x2b) == 0x2b || (if west then (0x2d : UInt8) else 0x2b) == 0x2d) = true := by
    cases west <;> rfl
  have hwest : ((if west then (0x2d : UInt8) else 0x2b) == 0x2d) = west := by cases west <;> rfl
  have hlt : ∀ n, (two n).length = 2 := fun _ => rfl
  have hd : ∀ n (l : List UInt8), (two n ++ l).drop 2 = l := fun n l => by simp [two]
  cases form with
  | hour =>
    refine ⟨_, _, ⟨?_, rfl, rfl⟩, trivial⟩
    have h1 := hz [] hour hh
    rw [List.append_nil] at h1
    have h2 := hd hour []
    rw [List.append_nil] at h2
    simp only [zoneText, zone, List.append_nil, List.cons_append, List.nil_append, List.length_cons, hlt,
      h1, h2, bind_ok, hwest]
    simp [pure, Except.pure, formMinute]
  | hourMinute =>
    refine ⟨_, _, ⟨?_, rfl, rfl⟩, trivial⟩
    · have h1 := hz (two minute) hour hh
      have h3 := hz [] minute hm
      rw [List.append_nil] at h3
      have h4 : (two minute).head? ≠ some 0x3a := by
        simp only [two, List.head?_cons, ne_eq, Option.some.injEq]
        intro h
        have := (digit_facts (minute / 10) (by omega)).2
        rw [h] at this
        simp at this
        omega
      simp only [zoneText, zone, List.cons_append, List.nil_append, List.length_cons, List.length_append, hlt,
        Bool.true_and, h1, hd, bind_ok, hwest, h4, h3, if_false, if_true]
      simp [pure, Except.pure, formMinute]
  | hourColonMinute =>
    refine ⟨_, _, ⟨?_, rfl, rfl⟩, trivial⟩
    · have h1 := hz ([0x3a] ++ two minute) hour hh
      have h3 := hz [] minute hm
      rw [List.append_nil] at h3
      simp only [zoneText, zone, List.cons_append, List.nil_append, List.length_cons, List.length_append, hlt,
        Bool.true_and, bind_ok, hwest, h3, if_true] at h1 ⊢
      simp [h1, bind_ok, hd, h3, hlt, pure, Except.pure, formMinute]

theorem tz_cases (h m : Int) : tzPartsValid h m = .ok () ∨ tzPartsValid h m = .error .format := by
  unfold tzPartsValid
  split <;> simp

theorem tz_value (h m : Int) (h1 : -100 < h) (h2 : h < 100) (h3 : 0 ≤ m) (h4 : m < 100) :
    tzOffsetSeconds h m =
      (tzPartsValid h m >>= fun _ => .ok (if h < 0 then -(-h * 3600 + m * 60) else h * 3600 + m * 60)) := by
  unfold tzOffsetSeconds
  congr 1
  funext _
  by_cases hn : h < 0
  · simp only [if_pos hn]
    rw [int32_ok (by omega) (by omega), bind_ok, int32_ok (by omega) (by omega), bind_ok,
      int32_ok (by omega) (by omega), bind_ok, int32_ok (by omega) (by omega)]
    congr 1
    omega
  · simp only [if_neg hn]
    rw [int32_ok (by omega) (by omega), bind_ok, int32_ok (by omega) (by omega), bind_ok,
      int32_ok (by omega) (by omega), bind_ok, int32_ok (by omega) (by omega)]
    congr 1
    omega

/-- The offset of a zone accepted by the program, except for a zone less than an hour west of UTC. -/
theorem c05_zone_partial (form : ZoneForm) (west : Bool) (hour minute : Nat) (hh : hour < 100) (hm : minute < 100)
    (hsign : west = true → hour = 0 → zoneOffset form west hour minute = 0) :
    ∃ h m : Int, zone (zoneText form west hour minute) = .ok (some (h, m)) ∧
      (tzOffsetSeconds h m = .ok (zoneOffset form west hour minute) ∨
        tzOffsetSeconds h m = .error .format) := by
  have key : ∀ k : Nat, k < 100 → (west = true → hour = 0 → k = 0) →
      (tzOffsetSeconds ((hour : Int) * (if west then -1 else 1)) k =
        .ok (if west then -((hour : Int) * 3600 + k * 60) else (hour : Int) * 3600 + k * 60) ∨
      tzOffsetSeconds ((hour : Int) * (if west then -1 else 1)) k = .error .format) := by
    intro k hk hw
    rw [tz_value _ _ (by split <;> omega) (by split <;> omega) (by omega) (by omega)]
    rcases tz_cases ((hour : Int) * (if west then -1 else 1)) k with h | h
    · left
      rw [h, bind_ok]
      congr 1
      cases west
      · simp only [if_false, Bool.false_eq_true]
        rw [if_neg (by omega)]
        omega
      · simp only [if_true]
        by_cases h0 : hour = 0
        · have := hw rfl h0
          subst h0 this
          rfl
        · rw [if_pos (by omega)]
          omega
    · right
      rw [h]
      rfl
  obtain ⟨h, m, ⟨e1, e2, e3⟩, -⟩ := zone_value form west hour minute hh hm
  refine ⟨h, m, e1, ?_⟩
  rw [e2, e3]
  cases form with
  | hour => simpa [zoneOffset, formMinute] using key 0 (by omega) (fun _ _ => rfl)
  | hourMinute =>
    refine key minute hm ?_
    intro hw h0
    have := hsign hw h0
    simp only [zoneOffset, hw, if_true] at this
    omega
  | hourColonMinute =>
    refine key minute hm ?_
    intro hw h0
    have := hsign hw h0
    simp only [zoneOffset, hw, if_true] at this
    omega

example : zone (zoneText .hourColonMinute true 3 30) = .ok (some (-3, 30)) ∧ tzOffsetSeconds (-3) 30 = .ok (-12600) := by
  decide

/-- A zone less than one hour west of UTC is taken as east of UTC: the sign of the hours is lost. -/
theorem c05_zone_sign_lost :
    zone (zoneText .hourColonMinute true 0 30) = .ok (some (0, 30)) ∧
    tzOffsetSeconds 0 30 = .ok (-(zoneOffset .hourColonMinute true 0 30)) ∧
    zoneOffset .hourColonMinute true 0 30 = -1800 := by decide

/-- A zone with more than 59 minutes is accepted. -/
theorem c05_zone_minutes_unbounded : tzOffsetSeconds 1 90 = .ok 9000 := by decide

/-- Offsets of a whole number of quarters of an hour from -12:00 to +14:00. -/
def KnownZone (west : Bool) (hour minute : Nat) : Prop :=
  minute < 60 ∧ minute % 15 = 0 ∧ (hour ≤ 11 ∨ west = true ∧ hour = 12 ∧ minute = 0 ∨
    west = false ∧ (hour ≤ 13 ∨ hour = 14 ∧ minute = 0))

instance (west : Bool) (hour minute : Nat) : Decidable (KnownZone west hour minute) :=
  inferInstanceAs (Decidable (_ ∧ _))

/-- Nothing or a decimal separator with digits. -/
def IsFraction (f : List UInt8) : Prop :=
  f = [] ∨ ∃ c ds, f = c :: ds ∧ (c = 0x2e ∨ c = 0x2c) ∧ ds ≠ [] ∧ ∀ d ∈ ds, isDigit d = true

theorem dropWhile_digits (ds rest : List UInt8) (h : ∀ d ∈ ds, isDigit d = true)
    (hr : ∀ c, rest.head? = some c → isDigit c = false) : (ds ++ rest).dropWhile isDigit = rest := by
  induction ds with
  | nil =>
    cases rest with
    | nil => rfl
    | cons c r => simp [List.dropWhile, hr c rfl]
  | cons d ds ih =>
    rw [List.cons_append, List.dropWhile_cons_of_pos (h d (by simp))]
    exact ih fun x hx => h x (by simp [hx])

theorem skip_fraction (f rest : List UInt8) (hf : IsFraction f)
    (hr : ∀ c, rest.head? = some c → isDigit c = false ∧ c ≠ 0x2e ∧ c ≠ 0x2c) : skipFraction (f ++ rest) = rest := by
  rcases hf with rfl | ⟨c, ds, rfl, hc, hne, hd⟩
  · cases rest with
    | nil => rfl
    | cons c r =>
      have := hr c rfl
      simp [skipFraction, this.2.1, this.2.2]
  · have : 0 < ds.length := List.length_pos_iff.2 hne
    have hc' : (c == 0x2e || c == 0x2c) = true := by rcases hc with rfl | rfl <;> rfl
    unfold skipFraction
    rw [List.cons_append]
    simp only
    rw [if_pos (by simp only [hc', Bool.true_and, decide_eq_true_eq, List.length_cons, List.length_append]; omega)]
    exact dropWhile_digits ds rest hd fun c hc => (hr c hc).1

theorem zone_head (form : ZoneForm) (west : Bool) (hour minute : Nat) (c : UInt8)
    (h : (zoneText form west hour minute).head? = some c) : isDigit c = false ∧ c ≠ 0x2e ∧ c ≠ 0x2c := by
  cases west <;> simp [zoneText] at h <;> subst h <;> decide

/-- The fixed part of the text is read back. -/
theorem text_prefix (mk : Int → Int → Int → Int → Int → Int → Int) (a : Date) (hour minute second : Nat)
    (rest : List UInt8) (ha : a.Valid) (hy : a.year < 10000) (hh : hour < 24) (hm : minute < 60) (hs : second < 60) :
    timeFromText mk (dateTimeText a hour minute second ++ rest) =
      (zone (skipFraction rest) >>= fun z =>
        match z with
        | some (h, m) => (do
          let offset ← tzOffsetSeconds h m
          epochFromParts a.year a.month a.day hour minute second offset)
        | none => pure (mk a.year a.month a.day hour minute second)) := by
  have hv := (c05_date_valid a.year a.month a.day).1.2 ⟨a, ha, rfl, rfl, rfl⟩
  have hmonth : a.month < 100 := by have := ha.2.2.1; omega
  have hday : a.day < 100 := by
    have := ha.2.2.2.2
    have h2 : monthLength a.year a.month ≤ 31 := by unfold monthLength; split <;> split <;> omega
    omega
  obtain ⟨y, m, d⟩ := a
  simp only at hv hy hmonth hday ⊢
  have htime : timePartsValid (hour : Int) minute second = .ok () := by
    unfold timePartsValid
    rw [if_pos (by omega)]
  have e0 : dateTimeText ⟨y, m, d⟩ hour minute second ++ rest =
      four y ++ ([0x2d] ++ (two m ++ ([0x2d] ++ (two d ++ ([0x20] ++ (two hour ++ ([0x3a] ++ (two minute ++
        ([0x3a] ++ (two second ++ rest)))))))))) := by simp [dateTimeText]
  have e1 : dateTimeText ⟨y, m, d⟩ hour minute second ++ rest =
      (four y ++ [0x2d]) ++ (two m ++ ([0x2d] ++ (two d ++ ([0x20] ++ (two hour ++ ([0x3a] ++ (two minute ++
        ([0x3a] ++ (two second ++ rest))))))))) := by simp [dateTimeText]
  have e2 : dateTimeText ⟨y, m, d⟩ hour minute second ++ rest =
      (four y ++ [0x2d] ++ two m ++ [0x2d]) ++ (two d ++ ([0x20] ++ (two hour ++ ([0x3a] ++ (two minute ++
        ([0x3a] ++ (two second ++ rest))))))) := by simp [dateTimeText]
  have e3 : dateTimeText ⟨y, m, d⟩ hour minute second ++ rest =
      (four y ++ [0x2d] ++ two m ++ [0x2d] ++ two d ++ [0x20]) ++ (two hour ++ ([0x3a] ++ (two minute ++
        ([0x3a] ++ (two second ++ rest))))) := by simp [dateTimeText]
  have e4 : dateTimeText ⟨y, m, d⟩ hour minute second ++ rest =
      (four y ++ [0x2d] ++ two m ++ [0x2d] ++ two d ++ [0x20] ++ two hour ++ [0x3a]) ++ (two minute ++
        ([0x3a] ++ (two second ++ rest))) := by simp [dateTimeText]
  have e5 : dateTimeText ⟨y, m, d⟩ hour minute second ++ rest =
      (four y ++ [0x2d] ++ two m ++ [0x2d] ++ two d ++ [0x20] ++ two hour ++ [0x3a] ++ two minute ++ [0x3a]) ++
        (two second ++ rest) := by simp [dateTimeText]
  have t0 := timePart_four ([0x2d] ++ (two m ++ ([0x2d] ++ (two d ++ ([0x20] ++ (two hour ++ ([0x3a] ++ (two minute ++
        ([0x3a] ++ (two second ++ rest)))))))))) y hy
  have t1 := timePart_two (four y ++ [0x2d]) ([0x2d] ++ (two d ++ ([0x20] ++ (two hour ++ ([0x3a] ++ (two minute ++
        ([0x3a] ++ (two second ++ rest)))))))) m hmonth
  have t2 := timePart_two (four y ++ [0x2d] ++ two m ++ [0x2d]) ([0x20] ++ (two hour ++ ([0x3a] ++ (two minute ++
        ([0x3a] ++ (two second ++ rest)))))) d hday
  have t3 := timePart_two (four y ++ [0x2d] ++ two m ++ [0x2d] ++ two d ++ [0x20]) ([0x3a] ++ (two minute ++
        ([0x3a] ++ (two second ++ rest)))) hour (by omega)
  have t4 := timePart_two (four y ++ [0x2d] ++ two m ++ [0x2d] ++ two d ++ [0x20] ++ two hour ++ [0x3a])
        ([0x3a] ++ (two second ++ rest)) minute (by omega)
  have t5 := timePart_two (four y ++ [0x2d] ++ two m ++ [0x2d] ++ two d ++ [0x20] ++ two hour ++ [0x3a] ++ two minute ++
        [0x3a]) rest second (by omega)
  rw [← e0] at t0
  rw [← e1] at t1
  rw [← e2] at t2
  rw [← e3] at t3
  rw [← e4] at t4
  rw [← e5] at t5
  have hdrop : (dateTimeText ⟨y, m, d⟩ hour minute second ++ rest).drop 19 = rest := by
    simp [dateTimeText, four, two]
  have hfix : ¬ ((dateTimeText ⟨y, m, d⟩ hour minute second ++ rest).length < 19 ∨
      (dateTimeText ⟨y, m, d⟩ hour minute second ++ rest)[4]? ≠ some 0x2d ∨
      (dateTimeText ⟨y, m, d⟩ hour minute second ++ rest)[7]? ≠ some 0x2d ∨
      (dateTimeText ⟨y, m, d⟩ hour minute second ++ rest)[10]? ≠ some 0x20 ∨
      (dateTimeText ⟨y, m, d⟩ hour minute second ++ rest)[13]? ≠ some 0x3a ∨
      (dateTimeText ⟨y, m, d⟩ hour minute second ++ rest)[16]? ≠ some 0x3a) := by
    simp [dateTimeText, four, two]
  have l1 : (four y ++ [0x2d]).length = 5 := rfl
  have l2 : (four y ++ [0x2d] ++ two m ++ [0x2d]).length = 8 := rfl
  have l3 : (four y ++ [0x2d] ++ two m ++ [0x2d] ++ two d ++ [0x20]).length = 11 := rfl
  have l4 : (four y ++ [0x2d] ++ two m ++ [0x2d] ++ two d ++ [0x20] ++ two hour ++ [0x3a]).length = 14 := rfl
  have l5 : (four y ++ [0x2d] ++ two m ++ [0x2d] ++ two d ++ [0x20] ++ two hour ++ [0x3a] ++ two minute ++
    [0x3a]).length = 17 := rfl
  rw [l1] at t1
  rw [l2] at t2
  rw [l3] at t3
  rw [l4] at t4
  rw [l5] at t5
  unfold timeFromText
  rw [if_neg hfix, t0, bind_ok, t1, bind_ok, t2, bind_ok, t3, bind_ok, t4, bind_ok, t5, bind_ok, hv, bind_ok, htime,
    bind_ok, hdrop]
  rfl

/-- A date and time with a zone converts to the instant it denotes (while that is before 2038-01-19 03:14:08 UTC, see
`c05_epoch`; a zone less than an hour west of UTC is excluded, see `c05_zone_sign_lost`). -/
theorem c05_text_partial (mk : Int → Int → Int → Int → Int → Int → Int) (n hour minute second : Nat)
    (f : List UInt8) (form : ZoneForm) (west : Bool) (zh zm : Nat)
    (hy : (dayN n).year < 10000) (hh : hour < 24) (hm : minute < 60) (hs : second < 60) (hf : IsFraction f)
    (hz : KnownZone west zh zm) (hsign : west = true → zh = 0 → zm = 0)
    (hfit : instant n hour minute second (zoneOffset form west zh zm) < 2 ^ 31) :
    timeFromText mk (dateTimeText (dayN n) hour minute second ++ (f ++ zoneText form west zh zm)) =
      .ok (instant n hour minute second (zoneOffset form west zh zm)) := by
  rw [text_prefix mk (dayN n) hour minute second _ (dayN_valid n) hy hh hm hs,
    skip_fraction f _ hf (fun c hc => zone_head form west zh zm c hc)]
  obtain ⟨hz1, hz2, hz3⟩ := hz
  obtain ⟨h, m, e1, e2⟩ := c05_zone_partial form west zh zm (by omega) (by omega) (by
    intro hw h0
    have := hsign hw h0
    subst hw h0 this
    cases form <;> rfl)
  have hoff : -86400 ≤ zoneOffset form west zh zm ∧ zoneOffset form west zh zm ≤ 86400 := by
    cases form <;> cases west <;> simp [zoneOffset] <;> omega
  have e3 : tzOffsetSeconds h m = .ok (zoneOffset form west zh zm) := by
    rcases e2 with e2 | e2
    · exact e2
    · exfalso
      have e4 : h = (zh : Int) * (if west then -1 else 1) ∧
          m = formMinute form zm := by
        obtain ⟨h', m', e1', -⟩ := zone_value form west zh zm (by omega) (by omega)
        rw [e1'.1] at e1
        simp only [Except.ok.injEq, Option.some.injEq, Prod.mk.injEq] at e1
        rw [← e1.1, ← e1.2]
        exact e1'.2
      obtain ⟨rfl, rfl⟩ := e4
      have hm0 : (0 : Int) ≤ formMinute form zm ∧
        formMinute form zm < 60 ∧
        formMinute form zm % 15 = 0 ∧
        (zm = 0 → formMinute form zm = 0) := by
        cases form <;> simp [formMinute] <;> omega
      generalize formMinute form zm = mm at hm0 e2
      rw [tz_value _ _ (by split <;> omega) (by split <;> omega) (by omega) (by omega)] at e2
      have : tzPartsValid ((zh : Int) * (if west then -1 else 1)) mm = .ok () := by
        unfold tzPartsValid
        rw [if_pos]
        rw [Int.tmod_eq_emod_of_nonneg (by omega)]
        cases west <;> simp at hz3 ⊢ <;> omega
      rw [this] at e2
      simp [bind_ok] at e2
  rw [e1, bind_ok]
  simp only
  rw [e3, bind_ok, c05_epoch n hour minute second _ hh hm hs hoff, if_pos hfit]

-- 2020-02-29 23:59:59.5+05:45
example : dayN 18321 = ⟨2020, 2, 29⟩ → KnownZone false 5 45 ∧ IsFraction [0x2e, 0x35] ∧
    instant 18321 23 59 59 (zoneOffset .hourColonMinute false 5 45) < 2 ^ 31 :=
  fun _ => ⟨by decide, .inr ⟨0x2e, [0x35], rfl, .inl rfl, by simp, by decide⟩, by decide⟩

example : timeFromText (fun _ _ _ _ _ _ => 0) (dateTimeText ⟨2020, 2, 29⟩ 23 59 59 ++ ([0x2e, 0x35] ++
    zoneText .hourColonMinute false 5 45)) = .ok 1583000099 := by decide

/-- Without a zone the local time is converted by the C library. -/
theorem c05_text_local (mk : Int → Int → Int → Int → Int → Int → Int) (a : Date) (hour minute second : Nat)
    (f : List UInt8) (ha : a.Valid) (hy : a.year < 10000) (hh : hour < 24) (hm : minute < 60) (hs : second < 60)
    (hf : IsFraction f) :
    timeFromText mk (dateTimeText a hour minute second ++ f) = .ok (mk a.year a.month a.day hour minute second) := by
  rw [text_prefix mk a hour minute second _ ha hy hh hm hs]
  have := skip_fraction f [] hf (by simp)
  rw [List.append_nil] at this
  rw [this]
  rfl

theorem timePart_sound {s : List UInt8} {idx : Nat} {v : Int} (h : timePart s idx 2 = .ok v) :
    ∃ n : Nat, n < 100 ∧ v = n ∧ (s.drop idx).take 2 = two n := by
  unfold timePart at h
  split at h
  · simp at h
  · rename_i hl
    have hlen : ((s.drop idx).take 2).length = 2 := by simp; omega
    match e : (s.drop idx).take 2, hlen with
    | [c, d], _ =>
      rw [e] at h
      have hd := loop_sound _ _ _ _ h
      obtain ⟨n, hn, e'⟩ := two_inv c d (hd c (by simp)) (hd d (by simp))
      refine ⟨n, hn, ?_, e'⟩
      rw [e'] at h
      have := loop_two n hn 0 1 []
      simp only [List.append_nil] at this
      rw [this] at h
      simp [timePartLoop] at h
      exact h.symm

theorem timePart4_sound {s : List UInt8} {v : Int} (h : timePart s 0 4 = .ok v) :
    ∃ n : Nat, n < 10000 ∧ v = n ∧ s.take 4 = four n := by
  unfold timePart at h
  split at h
  · simp at h
  · rename_i hl
    rw [List.drop_zero] at h
    have hlen : (s.take 4).length = 4 := by simp; omega
    match e : s.take 4, hlen with
    | [a, b, c, d], _ =>
      rw [e] at h
      have hd := loop_sound _ _ _ _ h
      obtain ⟨n, hn, e1⟩ := two_inv a b (hd a (by simp)) (hd b (by simp))
      obtain ⟨m, hm, e2⟩ := two_inv c d (hd c (by simp)) (hd d (by simp))
      have e3 : [a, b, c, d] = four (100 * n + m) := by
        rw [four, show (100 * n + m) / 100 = n by omega, show (100 * n + m) % 100 = m by omega, ← e1, ← e2]
        rfl
      have := timePart_four [] (100 * n + m) (by omega)
      rw [List.append_nil] at this
      unfold timePart at this
      rw [if_neg (by simp [four, two]), List.drop_zero, ← e3] at this
      refine ⟨100 * n + m, by omega, ?_, e3⟩
      simp only [List.take] at this
      rw [h] at this
      simpa using this

/-- Only text that starts with a date of the calendar and a time of day in the usual form is accepted. -/
theorem c05_text_sound (mk : Int → Int → Int → Int → Int → Int → Int) (time : List UInt8) (v : Int)
    (h : timeFromText mk time = .ok v) :
    ∃ (a : Date) (hour minute second : Nat) (rest : List UInt8), a.Valid ∧ a.year < 10000 ∧ hour < 24 ∧ minute < 60 ∧
      second < 60 ∧ time = dateTimeText a hour minute second ++ rest := by
  unfold timeFromText at h
  split at h
  · simp at h
  rename_i hfix
  obtain ⟨year, p0, h⟩ := bind_inv h
  obtain ⟨month, p1, h⟩ := bind_inv h
  obtain ⟨day, p2, h⟩ := bind_inv h
  obtain ⟨hour, p3, h⟩ := bind_inv h
  obtain ⟨minute, p4, h⟩ := bind_inv h
  obtain ⟨second, p5, h⟩ := bind_inv h
  obtain ⟨_, p6, h⟩ := bind_inv h
  obtain ⟨_, p7, h⟩ := bind_inv h
  clear h
  obtain ⟨a, ha, rfl, rfl, rfl⟩ := (c05_date_valid _ _ _).1.1 p6
  obtain ⟨n0, b0, e0, q0⟩ := timePart4_sound p0
  obtain ⟨n1, b1, e1, q1⟩ := timePart_sound p1
  obtain ⟨n2, b2, e2, q2⟩ := timePart_sound p2
  obtain ⟨n3, b3, rfl, q3⟩ := timePart_sound p3
  obtain ⟨n4, b4, rfl, q4⟩ := timePart_sound p4
  obtain ⟨n5, b5, rfl, q5⟩ := timePart_sound p5
  have ht : (n3 : Int) ≥ 0 ∧ (n3 : Int) < 24 ∧ (n4 : Int) ≥ 0 ∧ (n4 : Int) < 60 ∧ (n5 : Int) ≥ 0 ∧ (n5 : Int) < 60 := by
    unfold timePartsValid at p7
    split at p7
    · assumption
    · simp at p7
  simp only [Nat.cast_inj] at e0 e1 e2
  refine ⟨a, n3, n4, n5, time.drop 19, ha, by omega, by omega, by omega, by omega, ?_⟩
  subst e0 e1 e2
  unfold dateTimeText
  rw [← q0, ← q1, ← q2, ← q3, ← q4, ← q5]
  match time, hfix with
  | c0 :: c1 :: c2 :: c3 :: c4 :: c5 :: c6 :: c7 :: c8 :: c9 :: c10 :: c11 :: c12 :: c13 :: c14 :: c15 :: c16 :: c17 ::
      c18 :: rest, hfix =>
    simp at hfix
    obtain ⟨rfl, rfl, rfl, rfl, rfl⟩ := hfix
    rfl

example : timeFromText (fun _ _ _ _ _ _ => 7) (dateTimeText ⟨2021, 2, 29⟩ 0 0 0) = .error .format := by decide

end Verif.Time
