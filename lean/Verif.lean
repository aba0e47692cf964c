import Verif.Prelude
import Verif.Bytes.Props
import Verif.BitRead.Props
import Verif.BitRead.Bytes
import Verif.BitRead.Exact
import Verif.BitRead.Overflow
import Verif.BitRead.Release
import Verif.BitRead.Narrow
import Verif.BitRead.Wide
import Verif.BitRead.AnyWidth
import Verif.BitRead.Positions
import Verif.Codebook.Props
import Verif.Codebook.Fails
import Verif.Codebook.Exact
import Verif.Codebook.Overlap
import Verif.Codebook.Levels
import Verif.Codebook.Orders
import Verif.Codebook.Many
import Verif.Codebook.Panics
import Verif.Codebook.Descs
import Verif.Codebook.Mirror
import Verif.Codebook.Release
import Verif.Codebook.Narrow
import Verif.Codebook.Size
import Verif.Acc.Props
import Verif.Acc.Offset
import Verif.Acc.Drift
import Verif.Acc.Overflow
import Verif.Acc.Release
import Verif.Acc.Narrow
import Verif.Acc.Until
import Verif.Acc.Rewind
import Verif.Audio.Props
import Verif.Pixel.Props
import Verif.Pixel.Texts
import Verif.Frame.Props
import Verif.Frame.Shared
import Verif.Frame.Pool
import Verif.Frame.Views
import Verif.Frame.Exact
import Verif.Frame.Release
import Verif.Frame.Narrow
import Verif.Packet.Props
import Verif.ByteIo.Props
import Verif.ByteIo.Sequence
import Verif.ByteIo.Exact
import Verif.Stream.Props
import Verif.Demux.Progress
import Verif.Demux.Diverge
import Verif.Demux.Probe
import Verif.Demux.Announce
import Verif.Demux.Framing
import Verif.Demux.Panics
import Verif.Demux.Memory
import Verif.RoundTrip.Props
import Verif.RoundTrip.Pipeline
import Verif.Mux.Props
import Verif.Mux.Again
import Verif.Mux.Narrow
import Verif.Mux.File
import Verif.Value.Props
import Verif.Codec.Props
import Verif.Codec.Panics
import Verif.Text.Props
import Verif.Access.Props
import Verif.Conform.Acc
import Verif.Live.Link
import Verif.Live.Props
import Verif.Live.Demux
import Verif.Live.Poll
import Verif.Conform.BitRead
import Verif.Conform.Bytes
import Verif.Conform.Codebook
import Verif.Conform.Data
import Verif.Conform.Format
import Verif.Conform.Muxer
import Verif.Conform.Codecs
import Verif.Live.Queue
import Verif.Live.Calls
import Verif.Live.Economy
import Verif.Live.Large
import Verif.Live.Border
import Verif.Mux.Large
import Verif.RoundTrip.Remux
import Verif.Demux.Open
import Verif.Demux.Jumps
import Verif.Demux.Asking
import Verif.Demux.Heading
import Verif.Demux.Lost
import Verif.Conform.Benches
import Verif.RoundTrip.Index
import Verif.Live.Programs
import Verif.Demux.Streams
import Verif.Mux.Streams
import Verif.Codebook.Programs
import Verif.Frame.Buffers
import Verif.Frame.Runs
import Verif.Frame.Memory
import Verif.RoundTrip.Delayed
import Verif.RoundTrip.Predict
import Verif.Demux.Seeking
import Verif.RoundTrip.Scrub
import Verif.RoundTrip.Streams
import Verif.RoundTrip.Threads
import Verif.RoundTrip.Recording
import Verif.RoundTrip.Schedules
import Verif.RoundTrip.Relay
import Verif.RoundTrip.Tracks
import Verif.RoundTrip.Truth
import Verif.RoundTrip.Wired
import Verif.RoundTrip.Damaged
import Verif.RoundTrip.Fuel
import Verif.RoundTrip.Routes
import Verif.RoundTrip.Retry
import Verif.RoundTrip.Transcode
import Verif.RoundTrip.Coded
import Verif.Pixel.Names
import Verif.Live.Narrow
import Verif.Live.Nested
import Verif.Live.Wild
import Verif.Live.Counts
import Verif.BitRead.Low
import Verif.Frame.Wrap
import Verif.BitRead.Around
import Verif.BitRead.Checked
import Verif.Codebook.Kraft
import Verif.Codebook.Beyond
import Verif.Codebook.Plan
