import Verif.Demux.Model

/-!
# Specification: what `read_event` and `read_headers` do with a demuxer's answers
-/

namespace Verif.Demux
open Verif Verif.Io Verif.Frame Verif.Stream Verif.Packet

/-- The first stream of the table with the index `i`. -/
inductive FirstWith (i : Int) : List Stream → Option Stream → Prop
  | nil : FirstWith i [] none
  | here {st sts} : asIsize st.index = i → FirstWith i (st :: sts) (some st)
  | later {st sts o} : asIsize st.index ≠ i → FirstWith i sts o → FirstWith i (st :: sts) o

/-- The packet `q` returned for the demuxer's packet `p`: the same except for a missing timebase. -/
inductive Completed (streams : List Stream) (p : Packet) : Packet → Prop
  | own {t} : p.t.timebase = some t → Completed streams p p
  | stream {st} : p.t.timebase = none → FirstWith p.stream_index streams (some st) →
      Completed streams p { p with t := { p.t with timebase := some st.timebase } }
  | unknown : p.t.timebase = none → FirstWith p.stream_index streams none → Completed streams p p

/-- The event returned for the demuxer's event (requests are none). -/
inductive Delivered (streams : List Stream) : Event → Event → Prop
  | packet {p q} : Completed streams p q → Delivered streams (.NewPacket p) (.NewPacket q)
  | stream {s} : Delivered streams (.NewStream s) (.NewStream s)
  | continue : Delivered streams .Continue .Continue
  | eof : Delivered streams .Eof .Eof

/-- The streams an event announces. -/
def announced : Except Err Event → List Stream
  | .ok (.NewStream s) => [s]
  | _ => []

section
variable {D R : Type} (dm : Demuxer D R) (bf : Buffered R)

/-- Called in `c`, the demuxer asks for `n` bytes; `c'` is the context then. -/
inductive Asks (c : Context D R) (n : Nat) : Context D R → Prop
  | error {d r} : dm.readEvent c.demuxer c.reader = .ok (.error (.MoreDataNeeded n), d, r) →
      Asks c n ⟨d, r, c.info, c.user_private⟩
  | event {d r sk m r'} : dm.readEvent c.demuxer c.reader = .ok (.ok (sk, .MoreDataNeeded n), d, r) →
      bf.seek r sk = .ok (.ok m, r') → Asks c n ⟨d, r', c.info, c.user_private⟩

/-- Called in `c`, the demuxer answers, which makes `read_event` return `x`. -/
inductive Answers (c : Context D R) : Except Err Event → Context D R → Prop
  | error {d r e} : dm.readEvent c.demuxer c.reader = .ok (.error e, d, r) → (∀ n, e ≠ .MoreDataNeeded n) →
      Answers c (.error e) ⟨d, r, c.info, c.user_private⟩
  | seekError {d r sk ev e r'} : dm.readEvent c.demuxer c.reader = .ok (.ok (sk, ev), d, r) →
      bf.seek r sk = .ok (.error e, r') → Answers c (.error (.Io e)) ⟨d, r', c.info, c.user_private⟩
  | event {d r sk ev ev' m r'} : dm.readEvent c.demuxer c.reader = .ok (.ok (sk, ev), d, r) →
      bf.seek r sk = .ok (.ok m, r') → Delivered c.info.streams ev ev' →
      Answers c (.ok ev')
        ⟨d, r', { c.info with streams := c.info.streams ++ announced (.ok ev') }, c.user_private⟩

/-- The demuxer asks and is called again: there were as many bytes as it asked for, or some were added. -/
inductive Round (c : Context D R) : Context D R → Prop
  | again {n c' w} : Asks dm bf c n c' → bf.data c'.reader = .ok w → n ≤ w.length → Round c c'
  | more {n c' w l r w'} : Asks dm bf c n c' → bf.data c'.reader = .ok w → w.length < n →
      (bf.grow c'.reader n >>= bf.fillBuf) = .ok (.ok l, r) → bf.data r = .ok w' → w.length < w'.length →
      Round c ⟨c'.demuxer, r, c'.info, c'.user_private⟩

/-- The demuxer asks for more than is buffered and no byte can be had. -/
inductive RunsOut (c : Context D R) : Except Err Event → Context D R → Prop
  | readError {n c' w e r} : Asks dm bf c n c' → bf.data c'.reader = .ok w → w.length < n →
      (bf.grow c'.reader n >>= bf.fillBuf) = .ok (.error e, r) →
      RunsOut c (.error (.Io e)) ⟨c'.demuxer, r, c'.info, c'.user_private⟩
  | eof {n c' w l r w'} : Asks dm bf c n c' → bf.data c'.reader = .ok w → w.length < n →
      (bf.grow c'.reader n >>= bf.fillBuf) = .ok (.ok l, r) → bf.data r = .ok w' → w'.length ≤ w.length →
      RunsOut c (.ok .Eof) ⟨c'.demuxer, r, c'.info, c'.user_private⟩

/-- Any number of rounds. -/
inductive Rounds : Context D R → Context D R → Prop
  | refl {c} : Rounds c c
  | step {c c' c''} : Round dm bf c c' → Rounds c' c'' → Rounds c c''

/-- One round of `read_headers`: the buffer is filled, the demuxer asks for `n`, the buffer grows by `n`. -/
inductive HRound (c : Context D R) : Context D R → Prop
  | mk {l r d r' info n g} : bf.fillBuf c.reader = .ok (.ok l, r) →
      dm.readHeaders c.demuxer r c.info = .ok (.error (.MoreDataNeeded n), d, r', info) →
      bf.grow r' n = .ok g → HRound c ⟨d, g, info, c.user_private⟩

inductive HRounds : Context D R → Context D R → Prop
  | refl {c} : HRounds c c
  | step {c c' c''} : HRound dm bf c c' → HRounds c' c'' → HRounds c c''

/-- The last round of `read_headers`. -/
inductive HLast (c : Context D R) : Except Err Unit → Context D R → Prop
  | readError {e r} : bf.fillBuf c.reader = .ok (.error e, r) →
      HLast c (.error (.Io e)) ⟨c.demuxer, r, c.info, c.user_private⟩
  | error {l r d r' info e} : bf.fillBuf c.reader = .ok (.ok l, r) →
      dm.readHeaders c.demuxer r c.info = .ok (.error e, d, r', info) → (∀ n, e ≠ .MoreDataNeeded n) →
      HLast c (.error e) ⟨d, r', info, c.user_private⟩
  | accepted {l r d r' info sk y r''} : bf.fillBuf c.reader = .ok (.ok l, r) →
      dm.readHeaders c.demuxer r c.info = .ok (.ok sk, d, r', info) → bf.seek r' sk = .ok (y, r'') →
      HLast c (.ok ()) ⟨d, r'', info, c.user_private⟩
end

end Verif.Demux
