import Verif.Model.Result
/-!
# C19: status codes and their messages

`resultStr c` is the text of the status with underlying value `c`; the C++ type can hold every
16-bit value.
-/

namespace Verif.Props
open Verif Verif.Model

/-- The text `s` begins with `p`. -/
def StartsWith (p : Str) (s : Str) : Prop := ∃ rest, s = p ++ rest

/-- C19: the text decides the class of the code, for every 16-bit code: below `complete` (7) the
watcher keeps running and the text is `pending` or a warning; above it the text is an error. -/
theorem C19_text_tells_class (c : Nat) :
    (c < 7 ↔ resultStr c = b!"pending@" ∨ StartsWith b!"w" (resultStr c)) ∧
    (c = 7 ↔ resultStr c = b!"complete@") ∧
    (7 < c ↔ StartsWith b!"e" (resultStr c)) := by
  by_cases h : c < 18
  · have : c = 0 ∨ c = 1 ∨ c = 2 ∨ c = 3 ∨ c = 4 ∨ c = 5 ∨ c = 6 ∨ c = 7 ∨ c = 8 ∨ c = 9 ∨ c = 10 ∨ c = 11 ∨
      c = 12 ∨ c = 13 ∨ c = 14 ∨ c = 15 ∨ c = 16 ∨ c = 17 := by omega
    rcases this with h | h | h | h | h | h | h | h | h | h | h | h | h | h | h | h | h | h <;> subst h <;>
      simp [resultStr, StartsWith]
  · have e : resultStr c = b!"e/unknown@" := by
      unfold resultStr
      repeat rw [if_neg (by omega)]
    rw [e]
    refine ⟨⟨by omega, ?_⟩, ⟨by omega, by simp⟩, ⟨fun _ => ⟨_, rfl⟩, by omega⟩⟩
    rintro (h | ⟨r, h⟩) <;> simp at h

/-- C19: the loop condition and the error test agree with the classes, for every named status; being
an error, being the clean end and keeping on running exclude each other and cover everything. -/
theorem C19_classes_partition (r : Result) :
    (r.keepsRunning = true ↔ r.str = b!"pending@" ∨ StartsWith b!"w" r.str) ∧
    (r.isError = true ↔ StartsWith b!"e" r.str) ∧
    (r.keepsRunning = true ∧ r.isError = false ∧ r ≠ .complete ∨
     r.keepsRunning = false ∧ r.isError = false ∧ r = .complete ∨
     r.keepsRunning = false ∧ r.isError = true ∧ r ≠ .complete) := by
  cases r <;> simp [Result.keepsRunning, Result.isError, Result.str, Result.code, resultStr, StartsWith]

/-- C19: no two codes share a message, except that all unnamed ones are reported as the unknown error. -/
theorem C19_messages_injective (c d : Nat) (h : resultStr c = resultStr d) :
    c = d ∨ (17 < c ∧ 17 < d ∧ resultStr c = b!"e/unknown@") := by
  have key : ∀ c : Nat, 17 < c → resultStr c = b!"e/unknown@" := by
    intro c hc
    unfold resultStr
    repeat rw [if_neg (by omega)]
  have small : ∀ c : Fin 18, ∀ d : Fin 18, resultStr c.1 = resultStr d.1 → c = d := by decide
  have unk : ∀ c : Fin 18, resultStr c.1 ≠ b!"e/unknown@" := by decide
  by_cases hc : 17 < c <;> by_cases hd : 17 < d
  · exact .inr ⟨hc, hd, key c hc⟩
  · rw [key c hc] at h; exact absurd h.symm (unk ⟨d, by omega⟩)
  · rw [key d hd] at h; exact absurd h (unk ⟨c, by omega⟩)
  · left
    have := small ⟨c, by omega⟩ ⟨d, by omega⟩ h
    simpa using this

/-- C19: every message is a word and a final `@`, so the path can be appended unambiguously. -/
theorem C19_message_shape (c : Nat) : ∃ word : Str, resultStr c = word ++ b!"@" ∧ 64 ∉ word := by
  by_cases h : c < 18
  · have : ∀ c : Fin 18, resultStr c.1 = (resultStr c.1).dropLast ++ b!"@" ∧ 64 ∉ (resultStr c.1).dropLast := by
      decide
    exact ⟨_, this ⟨c, h⟩⟩
  · refine ⟨b!"e/unknown", ?_, by decide⟩
    unfold resultStr
    repeat rw [if_neg (by omega)]
    rfl

/-- Two named statuses with the same number are the same status. -/
theorem C19_codes_injective (r q : Result) (h : r.code = q.code) : r = q := by
  cases r <;> cases q <;> first | rfl | (simp [Result.code] at h)

/-- The name of each status as written in the enumeration (watcher.hpp:845-864), with `/` where the
messages have it (`e_sys_api_read` is `e/sys/api/read`). Independent of the numbers. -/
def statusName : Result → Str
  | .pending => b!"pending"
  | .w => b!"w"
  | .wNotWatched => b!"w/sys/not_watched"
  | .wPhantom => b!"w/sys/phantom"
  | .wBadFd => b!"w/sys/bad_fd"
  | .wBadMeta => b!"w/sys/bad_meta"
  | .wQOverflow => b!"w/sys/q_overflow"
  | .complete => b!"complete"
  | .e => b!"e"
  | .eInotify => b!"e/sys/api/inotify"
  | .eFanotify => b!"e/sys/api/fanotify"
  | .eEpoll => b!"e/sys/api/epoll"
  | .eRead => b!"e/sys/api/read"
  | .eEventfd => b!"e/sys/api/eventfd"
  | .eRet => b!"e/sys/ret"
  | .eKernelVersion => b!"e/sys/lim/kernel_version"
  | .eNoent => b!"e/self/noent"
  | .eEvRecv => b!"e/self/ev_recv"

/-- C19: every status is reported under its own name. -/
theorem C19_own_name (r : Result) : r.str = statusName r ++ b!"@" := by
  cases r <;> simp [Result.str, Result.code, resultStr, statusName]

example : resultStr Result.eRead.code = b!"e/sys/api/read@" ∧ resultStr 40000 = b!"e/unknown@" := by decide

end Verif.Props
