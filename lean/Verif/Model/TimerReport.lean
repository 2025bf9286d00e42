import Verif.Model.Fmt
import Verif.Model.Logger

/-!
# The tables of timers and counters

`print(qtmlogger)` — /repo/src/qtm/logger.py:286-301, 377-385, 444-445.
-/

namespace Verif.TimerReport

open Verif QEInp Fmt Logger

/-- `f"{s:^w}"`: blanks on both sides, one more on the right if their number is odd -/
def center (w : ℕ) (s : Str) : Str :=
  List.replicate ((w - s.length) / 2) ' ' ++ s ++ List.replicate ((w - s.length) - (w - s.length) / 2) ' '

/-- `'RUNNING' if count['status'] else 'STOPPED'` -/
def statusStr (b : Bool) : Str := (if b then "RUNNING" else "STOPPED").toList

/-- one row of the timer table — logger.py:294-299 -/
noncomputable def timerRow (e : Label × TVal) : Str :=
  '|' :: (center 30 e.1 ++ '|' :: (padLeft 8 (intStr e.2.call) ++ '|' :: (padLeft 8 (fixed 2 (e.2.time : ℝ)) ++
    '|' :: (center 9 (statusStr e.2.status) ++ ['|']))))

/-- the ruler of `w` dashes -/
def ruler (w : ℕ) : Str := List.replicate w '-'

/-- the heading of the timer table — logger.py:290 -/
def timerHead : Str :=
  '|' :: (center 30 "LABEL".toList ++ '|' :: (center 8 "CALL".toList ++ '|' :: (center 8 "TIME".toList ++
    '|' :: (center 9 "STATUS".toList ++ ['|']))))

/-- every line followed by a newline -/
def unlines (ls : List Str) : Str := ls.flatMap fun l => l ++ ['\n']

/-- `QTMTimer.__str__` — logger.py:286-301 -/
noncomputable def timerReport (t : Table TVal) : Str :=
  unlines ([center 59 "TIMERS".toList, ruler 59, timerHead, ruler 59] ++ t.map timerRow ++ [ruler 59])

/-- one row of the counter table — logger.py:383 -/
def counterRow (e : Label × ℤ) : Str := '|' :: (center 30 e.1 ++ '|' :: (padLeft 7 (intStr e.2) ++ ['|']))

/-- the heading of the counter table — logger.py:379 -/
def counterHead : Str := '|' :: (center 30 "LABEL".toList ++ '|' :: (center 8 "COUNT".toList ++ ['|']))

/-- `QTMCounter.__str__` — logger.py:377-385 -/
def counterReport (t : Table ℤ) : Str :=
  unlines ([center 41 "COUNTERS".toList, ruler 41, counterHead, ruler 41] ++ t.map counterRow ++ [ruler 41])

/-- `QTMLogger.__str__` — logger.py:444-445: the counters are commented out -/
noncomputable def loggerReport (t : Table TVal) (_c : Table ℤ) : Str := timerReport t ++ ['\n']

end Verif.TimerReport
