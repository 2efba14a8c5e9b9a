import Verif.Prelude
import Verif.Bitset.Props
import Verif.Htab.Props
import Verif.StdBitset.Props
import Verif.Utf.Props
import Verif.Chartype.Props
import Verif.Str.Props
import Verif.Sort.Props
import Verif.Mem.Props
import Verif.Slice.Strbuf
import Verif.Slice.Io
import Verif.Endian.Props
import Verif.IntFmt.Props
import Verif.Path.Props
import Verif.Flt.Props
import Verif.Rand.Props
import Verif.Iter.Props
import Verif.Json.Props
import Verif.Sip.Props
import Verif.Ip.Props
import Verif.Layout.Props
import Verif.Use.Props
import Verif.Tydesc.Props
import Verif.Esc.Props
import Verif.Date.Props
import Verif.Regex.Sub
import Verif.Regex.Class
import Verif.Thread.MutexProps
import Verif.Thread.RwlockProps
import Verif.Thread.SemProps
import Verif.Thread.Waitgrp
import Verif.Thread.Spin
import Verif.Thread.SpinRw
import Verif.Thread.QueueProps
import Verif.Thread.Future
import Verif.Fold.Props
import Verif.Flow.Props
import Verif.Ra.Props
import Verif.Match.Props
import Verif.Alloc.SliceProps
import Verif.Big.Props
import Verif.Bio.Props
import Verif.Ini.Props
import Verif.Flate.Props
import Verif.Crypto.Props
import Verif.Chacha.Props
import Verif.Ct.Props
import Verif.Ctbig.Rsa
import Verif.Call.Va
import Verif.Call.Ret
import Verif.Aes.Props
import Verif.Optparse.Props
import Verif.Flatten.Props
import Verif.Zone.Props
import Verif.Dfmt.Props
import Verif.Round.Props
import Verif.Round.Near
import Verif.Round.Scale
import Verif.Conv.Props
import Verif.Fma.Diff
import Verif.Fma.Large
