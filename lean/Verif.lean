import Verif.Props.Ber
import Verif.Props.Resources
import Verif.Props.Roa
import Verif.Props.Tal
import Verif.Props.Pki
import Verif.Props.Revoke
import Verif.Props.Tables
import Verif.Props.Manager
import Verif.Props.Sync
import Verif.Props.Ov
import Verif.Props.Cms
import Verif.Props.Content
import Verif.Props.Output
import Verif.Props.Loop
import Verif.Props.Fetch
import Verif.Props.Local
import Verif.Props.PrefixText
import Verif.Props.Clock
import Verif.Props.EndToEnd
import Verif.Props.Ipv6Text
import Verif.Lemmas.Flags
import Verif.Model.Refresh
import Verif.Lemmas.Refresh
import Verif.Spec.Refresh
import Verif.Props.Refresh
import Verif.Props.ResJson
import Verif.Props.Ext
import Verif.Props.ExtAccess
import Verif.Props.RrdpState
import Verif.Props.RrdpHist
import Verif.Props.Crl
import Verif.Props.Info
import Verif.Props.Time
import Verif.Props.Crash
import Verif.Props.Repository
import Verif.Props.Report
import Verif.Props.RsyncOut
import Verif.Props.LocalRpki
import Verif.Props.Process
import Verif.Props.ProcessCrash
import Verif.Props.Conc
import Verif.Model.Ct
import Verif.Spec.Ct
import Verif.Lemmas.Ct
import Verif.Props.Ct
import Verif.Model.RrdpXml
import Verif.Spec.RrdpXml
import Verif.Lemmas.RrdpXml
import Verif.Props.RrdpXml
import Verif.Model.RrdpLimit
import Verif.Lemmas.RrdpLimit
import Verif.Props.RrdpLimit
import Verif.Model.RsaEncrypt
import Verif.Spec.RsaEncrypt
import Verif.Lemmas.RsaEncrypt
import Verif.Props.RsaEncrypt
import Verif.Model.ErrText
import Verif.Spec.ErrText
import Verif.Lemmas.ErrText
import Verif.Props.ErrText
import Verif.Model.Routes
import Verif.Spec.Routes
import Verif.Lemmas.Routes
import Verif.Props.Routes
import Verif.Props.Details
import Verif.Model.Json
import Verif.Spec.Json
import Verif.Lemmas.Json
import Verif.Lemmas.JsonPrint
import Verif.Lemmas.JsonInfo
import Verif.Props.Json
import Verif.Model.Spki
import Verif.Spec.Spki
import Verif.Lemmas.Spki
import Verif.Props.Spki
import Verif.Model.Xml
import Verif.Spec.Xml
import Verif.Lemmas.Xml
import Verif.Lemmas.XmlDoc
import Verif.Lemmas.XmlScan
import Verif.Lemmas.RrdpXmlMore
import Verif.Lemmas.XmlMore
import Verif.Props.Xml
import Verif.Model.CaXml
import Verif.Spec.CaXml
import Verif.Lemmas.CaXml
import Verif.Props.CaXml
import Verif.Lemmas.JsonExact
import Verif.Model.X509
import Verif.Spec.X509
import Verif.Lemmas.X509
import Verif.Lemmas.X509Parts
import Verif.Lemmas.X509Name
import Verif.Lemmas.X509Cert
import Verif.Lemmas.X509Safe
import Verif.Props.X509
import Verif.Props.X509Profile
import Verif.Model.Octets
import Verif.Spec.Octets
import Verif.Props.Octets
import Verif.Lemmas.PkiAnchor
import Verif.Spec.BerLax
import Verif.Lemmas.BerLax
import Verif.Props.BerLax
import Verif.Spec.CrashOctets
import Verif.Props.CrashOctets
import Verif.Spec.Revoked
import Verif.Lemmas.Revoked
import Verif.Props.Revoked
import Verif.Spec.Complete
import Verif.Lemmas.Complete
import Verif.Props.Complete
import Verif.Spec.CompleteLine
import Verif.Props.CompleteLine
import Verif.Lemmas.CompleteLine
import Verif.Model.Api
import Verif.Spec.Api
import Verif.Props.Api
import Verif.Spec.SameFiles
import Verif.Props.SameFiles
